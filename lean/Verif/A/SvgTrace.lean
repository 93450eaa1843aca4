import Verif.A.SvgGeo
import Mathlib.Tactic.IntervalCases

/-! # The loops of `bin2svg` follow the boundary -/

namespace Verif.Svg
open Verif.Py Verif.A

/-- The number of a corner with given incoming and outgoing direction -/
def code : Dir → Dir → Nat
  | .U, .R => 1
  | .R, .D => 2
  | .D, .L => 3
  | .L, .U => 4
  | .L, .D => 5
  | .D, .R => 6
  | .R, .U => 7
  | .U, .L => 8
  | _, _ => 0

/-- The entry for a point, when some of its corners are left -/
def encQ (nw ne sw se u r d l : Bool) : Nat :=
  if u && d then 13
  else if r && l then 24
  else if u then code .U (turnQ nw ne sw se .U)
  else if r then code .R (turnQ nw ne sw se .R)
  else if d then code .D (turnQ nw ne sw se .D)
  else if l then code .L (turnQ nw ne sw se .L)
  else 0

/-- The entry for a point, when the corners in `S` are left -/
def enc (F : Int → Int → Bool) (S : Finset Piece) (v : Pos) : Nat :=
  encQ (F (v.1 - 1) (v.2 - 1)) (F (v.1 - 1) v.2) (F v.1 (v.2 - 1)) (F v.1 v.2)
    (decide ((v, Dir.U) ∈ S)) (decide ((v, Dir.R) ∈ S)) (decide ((v, Dir.D) ∈ S)) (decide ((v, Dir.L) ∈ S))

variable {F : Int → Int → Bool} {H W : Nat}

/-- The matrix contains the corners in `S`. -/
structure Shows (F : Int → Int → Bool) (H W : Nat) (c : Corners) (S : Finset Piece) : Prop where
  high : c.high = H + 1
  wide : c.wide = W + 1
  entry : ∀ m n : Nat, m ≤ H → n ≤ W → c.entry m n = enc F S (m, n)
  piece : ∀ p ∈ S, isPiece F p = true

def InRange (H W : Nat) (v : Pos) : Prop := 0 ≤ v.1 ∧ v.1 ≤ H ∧ 0 ≤ v.2 ∧ v.2 ≤ W

theorem get_shows {c : Corners} {S : Finset Piece} (h : Shows F H W c S) {v : Pos} (hv : InRange H W v) : c.get v = .ok (enc F S v) := by
  obtain ⟨h1, h2, h3, h4⟩ := hv
  unfold Corners.get
  rw [h.high, h.wide, if_pos (by push_cast; omega)]
  rw [Int.emod_eq_of_lt h1 (by push_cast; omega), Int.emod_eq_of_lt h3 (by push_cast; omega), h.entry _ _ (by omega) (by omega)]
  rw [show ((v.1.toNat : Int), (v.2.toNat : Int)) = v by ext <;> simp <;> omega]

theorem enc_zero {S : Finset Piece} (hS : ∀ p ∈ S, isPiece F p = true) (v : Pos) : enc F S v = 0 ↔ ∀ d, (v, d) ∉ S := by
  have key : ∀ nw ne sw se u r d l : Bool, (u = true → pieceQ nw ne sw se .U = true) → (r = true → pieceQ nw ne sw se .R = true) →
      (d = true → pieceQ nw ne sw se .D = true) → (l = true → pieceQ nw ne sw se .L = true) →
      (encQ nw ne sw se u r d l = 0 ↔ u = false ∧ r = false ∧ d = false ∧ l = false) := by decide
  unfold enc
  rw [key _ _ _ _ _ _ _ _ (fun h => hS (v, .U) (by simpa using h)) (fun h => hS (v, .R) (by simpa using h))
    (fun h => hS (v, .D) (by simpa using h)) (fun h => hS (v, .L) (by simpa using h))]
  simp only [decide_eq_false_iff_not]
  constructor
  · rintro ⟨h1, h2, h3, h4⟩ d; cases d <;> assumption
  · intro h; exact ⟨h _, h _, h _, h _⟩

/-- The number 13 or 24 is only used if two corners are left. -/
theorem enc_single {S : Finset Piece} (hS : ∀ p ∈ S, isPiece F p = true) {v : Pos} {e : Dir} (he : (v, e) ∈ S) (hd : ∀ d, d ≠ e → (v, d) ∉ S) :
    enc F S v = code e (turn F (v, e)) ∧ 1 ≤ enc F S v ∧ enc F S v ≤ 8 := by
  have key : ∀ nw ne sw se e, pieceQ nw ne sw se e = true →
      encQ nw ne sw se (e = .U) (e = .R) (e = .D) (e = .L) = code e (turnQ nw ne sw se e) ∧
      1 ≤ encQ nw ne sw se (e = .U) (e = .R) (e = .D) (e = .L) ∧ encQ nw ne sw se (e = .U) (e = .R) (e = .D) (e = .L) ≤ 8 := by decide
  have hdec : ∀ d, decide ((v, d) ∈ S) = decide (e = d) := by
    intro d
    by_cases h : e = d
    · subst h; simp [he]
    · simp [h, hd d (Ne.symm h)]
  unfold enc
  rw [hdec, hdec, hdec, hdec]
  exact key _ _ _ _ _ (hS _ he)

/-- The numbers that `takeCorner` writes and returns -/
def takeNum (val : Nat) (oldval : Option Nat) : Except Err (Option Nat × Nat) :=
  if 1 ≤ val ∧ val ≤ 8 then .ok (some 0, val)
  else if val = 13 then
    match oldval with
    | none => .error .runtimeError
    | some o =>
      if o = 4 ∨ o = 7 then .ok (some 3, 1)
      else if o = 2 ∨ o = 5 then .ok (some 1, 3)
      else .ok (none, val)
  else if val = 24 then
    match oldval with
    | none => .error .runtimeError
    | some o =>
      if o = 1 ∨ o = 6 then .ok (some 4, 2)
      else if o = 3 ∨ o = 8 then .ok (some 2, 4)
      else .ok (none, val)
  else .ok (none, val)

theorem takeCorner_eq (c : Corners) (pos : Pos) (val : Nat) (oldval : Option Nat) (k v : Nat) (h : takeNum val oldval = .ok (some k, v)) :
    takeCorner c pos val oldval = .ok (c.set pos k, v) := by
  unfold takeNum at h
  unfold takeCorner
  repeat' split at h
  all_goals (try cases h)
  all_goals simp_all

theorem shows_set {c : Corners} {S : Finset Piece} (h : Shows F H W c S) {q : Piece} (hq : InRange H W q.1) (k : Nat)
    (hk : k = enc F (S.erase q) q.1) : Shows F H W (c.set q.1 k) (S.erase q) := by
  obtain ⟨h1, h2, h3, h4⟩ := hq
  refine ⟨h.high, h.wide, fun m n hm hn => ?_, fun p hp => h.piece p (Finset.mem_of_mem_erase hp)⟩
  unfold Corners.set
  dsimp only
  rw [h.high, h.wide, Int.emod_eq_of_lt h1 (by push_cast; omega), Int.emod_eq_of_lt h3 (by push_cast; omega)]
  by_cases hv : ((m : Int), (n : Int)) = q.1
  · rw [if_pos (by rw [← hv]; simp), hk, hv]
  · rw [if_neg, h.entry m n hm hn]
    · unfold enc
      have : ∀ d, (((m : Int), (n : Int)), d) ∈ S.erase q ↔ (((m : Int), (n : Int)), d) ∈ S := by
        intro d
        rw [Finset.mem_erase]
        constructor
        · exact fun h => h.2
        · exact fun h => ⟨fun he => hv (by rw [← he]), h⟩
      simp only [this]
    · rintro ⟨e1, e2⟩
      apply hv
      ext
      · simp only [e1]; omega
      · simp only [e2]; omega

/-- A round of the loop that does not begin the path takes the right corner. -/
theorem take_next {c : Corners} {S : Finset Piece} (h : Shows F H W c S) {v : Pos} {d e : Dir} (hv : InRange H W v) (he : (v, e) ∈ S)
    (hd : code d e ≠ 0) :
    ∃ c', takeCorner c v (enc F S v) (some (code d e)) = .ok (c', code e (turn F (v, e))) ∧ Shows F H W c' (S.erase (v, e)) := by
  have keyU : ∀ nw ne sw se r d l : Bool, pieceQ nw ne sw se .U = true → (r = true → pieceQ nw ne sw se .R = true) →
      (d = true → pieceQ nw ne sw se .D = true) → (l = true → pieceQ nw ne sw se .L = true) → ∀ a, code a .U ≠ 0 →
      takeNum (encQ nw ne sw se true r d l) (some (code a .U)) = .ok (some (encQ nw ne sw se false r d l), code .U (turnQ nw ne sw se .U)) := by
    decide
  have keyR : ∀ nw ne sw se u d l : Bool, (u = true → pieceQ nw ne sw se .U = true) → pieceQ nw ne sw se .R = true →
      (d = true → pieceQ nw ne sw se .D = true) → (l = true → pieceQ nw ne sw se .L = true) → ∀ a, code a .R ≠ 0 →
      takeNum (encQ nw ne sw se u true d l) (some (code a .R)) = .ok (some (encQ nw ne sw se u false d l), code .R (turnQ nw ne sw se .R)) := by
    decide
  have keyD : ∀ nw ne sw se u r l : Bool, (u = true → pieceQ nw ne sw se .U = true) → (r = true → pieceQ nw ne sw se .R = true) →
      pieceQ nw ne sw se .D = true → (l = true → pieceQ nw ne sw se .L = true) → ∀ a, code a .D ≠ 0 →
      takeNum (encQ nw ne sw se u r true l) (some (code a .D)) = .ok (some (encQ nw ne sw se u r false l), code .D (turnQ nw ne sw se .D)) := by
    decide
  have keyL : ∀ nw ne sw se u r d : Bool, (u = true → pieceQ nw ne sw se .U = true) → (r = true → pieceQ nw ne sw se .R = true) →
      (d = true → pieceQ nw ne sw se .D = true) → pieceQ nw ne sw se .L = true → ∀ a, code a .L ≠ 0 →
      takeNum (encQ nw ne sw se u r d true) (some (code a .L)) = .ok (some (encQ nw ne sw se u r d false), code .L (turnQ nw ne sw se .L)) := by
    decide
  have hne : ∀ d', d' ≠ e → decide ((v, d') ∈ S.erase (v, e)) = decide ((v, d') ∈ S) := by
    intro d' hd'
    simp [Finset.mem_erase, hd']
  have hno : decide ((v, e) ∈ S.erase (v, e)) = false := by simp
  have hyes : decide ((v, e) ∈ S) = true := by simp [he]
  have hp := h.piece _ he
  have himp : ∀ d', decide ((v, d') ∈ S) = true → isPiece F (v, d') = true := fun d' hd' => h.piece _ (by simpa using hd')
  refine ⟨c.set v (enc F (S.erase (v, e)) v), takeCorner_eq _ _ _ _ _ _ ?_, shows_set h (q := (v, e)) hv _ rfl⟩
  unfold enc
  cases e
  · rw [hno, hyes, hne .R (by decide), hne .D (by decide), hne .L (by decide)]
    exact keyU _ _ _ _ _ _ _ hp (himp .R) (himp .D) (himp .L) _ hd
  · rw [hno, hyes, hne .U (by decide), hne .D (by decide), hne .L (by decide)]
    exact keyR _ _ _ _ _ _ _ (himp .U) hp (himp .D) (himp .L) _ hd
  · rw [hno, hyes, hne .U (by decide), hne .R (by decide), hne .L (by decide)]
    exact keyD _ _ _ _ _ _ _ (himp .U) (himp .R) hp (himp .L) _ hd
  · rw [hno, hyes, hne .U (by decide), hne .R (by decide), hne .D (by decide)]
    exact keyL _ _ _ _ _ _ _ (himp .U) (himp .R) (himp .D) hp _ hd

/-- The first round of the loop takes a corner that is the only one of its point. -/
theorem take_first {c : Corners} {S : Finset Piece} (h : Shows F H W c S) {v : Pos} {e : Dir} (hv : InRange H W v) (he : (v, e) ∈ S)
    (hd : ∀ d, d ≠ e → (v, d) ∉ S) (o : Option Nat) :
    ∃ c', takeCorner c v (enc F S v) o = .ok (c', code e (turn F (v, e))) ∧ Shows F H W c' (S.erase (v, e)) := by
  obtain ⟨h1, h2, h3⟩ := enc_single h.piece he hd
  refine ⟨c.set v 0, ?_, shows_set h (q := (v, e)) hv _ ?_⟩
  · unfold takeCorner
    rw [if_pos ⟨h2, h3⟩, h1]
  · symm
    rw [enc_zero fun p hp => h.piece p (Finset.mem_of_mem_erase hp)]
    intro d
    rw [Finset.mem_erase]
    rintro ⟨hne, hm⟩
    by_cases hde : d = e
    · exact hne (by rw [hde])
    · exact hd d hde hm

theorem creep_spec {c : Corners} {S : Finset Piece} (hF : Within F H W) (h : Shows F H W c S) {p q : Piece} {t : Nat} (hn : Next F p q t)
    {st : Pos} {d0 : Dir} (hst : isPiece F (st, d0) = true) (hq : q.1 ≠ st → q ∈ S) :
    ∀ (k : Nat) (fuel : Nat) (s : Nat), s + k = t → 1 ≤ k → k ≤ fuel →
      creep c st (turn F p).vec fuel (walk p.1 (turn F p) s) = .ok (if q.1 = st then (st, 0) else (q.1, enc F S q.1)) := by
  intro k
  induction k with
  | zero => intro _ _ _ h0; omega
  | succ k ih =>
    intro fuel s hs _ hf
    obtain ⟨fuel, rfl⟩ : ∃ f, fuel = f + 1 := ⟨fuel - 1, by omega⟩
    unfold creep
    have hw : ((walk p.1 (turn F p) s).1 + (turn F p).vec.1, (walk p.1 (turn F p) s).2 + (turn F p).vec.2) = walk p.1 (turn F p) (s + 1) := by
      rw [← walk_add]
      simp [walk]
    dsimp only
    rw [hw]
    rcases Nat.eq_zero_or_pos k with rfl | hk
    · have hqp : q.1 = walk p.1 (turn F p) (s + 1) := by
        rw [hn.2.1, show s + 1 = t by omega]
      rw [← hqp]
      by_cases hqs : q.1 = st
      · rw [if_pos hqs, if_pos hqs, hqs]
      · rw [if_neg hqs, if_neg hqs]
        have hr := isPiece_range hF hn.2.2.1
        rw [get_shows h hr]
        have hne : enc F S q.1 ≠ 0 := by
          intro h0
          exact (enc_zero h.piece q.1).1 h0 q.2 (hq hqs)
        simp only [bind, Except.bind]
        rw [if_neg hne]
    · obtain ⟨hi, ho⟩ := hn.2.2.2 (s + 1) (by omega) (by omega)
      have hnp := straight_no_piece hi ho
      have hne : walk p.1 (turn F p) (s + 1) ≠ st := by
        intro he
        rw [he] at hnp
        exact absurd (hnp d0) (by rw [hst]; decide)
      rw [if_neg hne, get_shows h (inE_range hF hi)]
      have h0 : enc F S (walk p.1 (turn F p) (s + 1)) = 0 := by
        rw [enc_zero h.piece]
        intro d hm
        have := h.piece _ hm
        rw [hnp d] at this; cases this
      simp only [bind, Except.bind]
      rw [if_pos h0]
      exact ih fuel (s + 1) (by omega) hk (by omega)

theorem code_ne {p : Piece} (h : isPiece F p = true) : code p.2 (turn F p) ≠ 0 := by
  have : ∀ nw ne sw se d, pieceQ nw ne sw se d = true → code d (turnQ nw ne sw se d) ≠ 0 := by decide
  exact this _ _ _ _ _ h

theorem move_eq (c : Corners) (st pos : Pos) (d e : Dir) (h : code d e ≠ 0) :
    move c st pos (code d e) = creep c st e.vec (2 * (c.high + c.wide) + 2) pos := by
  cases d <;> cases e <;> first | exact absurd rfl h | rfl

theorem move_spec {c : Corners} {S : Finset Piece} (hF : Within F H W) (h : Shows F H W c S) {p q : Piece} {t : Nat} (hp : isPiece F p = true)
    (hn : Next F p q t) {st : Pos} {d0 : Dir} (hst : isPiece F (st, d0) = true) (hq : q.1 ≠ st → q ∈ S) :
    move c st p.1 (code p.2 (turn F p)) = .ok (if q.1 = st then (st, 0) else (q.1, enc F S q.1)) := by
  obtain ⟨q', t', hn', hb⟩ := next_exists hF hp
  obtain ⟨rfl, rfl⟩ := next_unique hn hn'
  rw [move_eq _ _ _ _ _ (code_ne hp)]
  have := creep_spec hF h hn hst hq t (2 * (c.high + c.wide) + 2) 0 (by omega) hn.1 (by rw [h.high, h.wide]; omega)
  rwa [walk_zero] at this

/-! ### one closed line -/

/-- A point of the plane: right and down from the corner of the matrix -/
abbrev Point := Int × Int

/-- The point of a position in the matrix of corners -/
def pointOf (p : Piece) : Point := (p.1.2, p.1.1)

/-- The part of an SVG path that draws a horizontal or vertical line -/
def lineStr (a b : Point) : List Char := if a.2 = b.2 then 'h' :: intStr (b.1 - a.1) else 'v' :: intStr (b.2 - a.2)

/-- The lines through a list of points -/
def linesStr : List Point → List Char
  | a :: b :: l => lineStr a b ++ linesStr (b :: l)
  | _ => []

/-- What is known about the corners that are left while a closed line is drawn that began at the corner `s`, when it arrives at `p` -/
structure Tracing (F : Int → Int → Bool) (s : Piece) (S : Finset Piece) (p : Piece) : Prop where
  mem : p ∈ S
  next : ∀ x ∈ S, ∀ y t, Next F x y t → y ∈ S ∨ y = s
  prev : p = s ∨ (s ∉ S ∧ ∀ x ∈ S, ∀ t, ¬ Next F x p t)
  single : ∀ d, d ≠ s.2 → (s.1, d) ∉ S

theorem stepLoop_spec (hF : Within F H W) {s : Piece} (hs : isPiece F s = true) : ∀ (k : Nat) (S : Finset Piece) (c : Corners) (p : Piece)
    (fuel : Nat) (o : Option Nat) (svg : List Char), S.card = k → Shows F H W c S → Tracing F s S p → S.card ≤ fuel →
    ((p = s ∧ o = none) ∨ ∃ d, o = some (code d p.2) ∧ code d p.2 ≠ 0) →
    ∃ (L : List Piece) (c' : Corners), stepLoop s.1 fuel c p.1 (enc F S p.1) o svg = .ok (c', svg ++ linesStr ((p :: L).map pointOf)) ∧
      (p :: L).Nodup ∧ (∀ x ∈ p :: L, x ∈ S) ∧ Shows F H W c' (S \ (p :: L).toFinset) ∧
      ∀ e ∈ (p :: L).zip (L ++ [s]), ∃ t, Next F e.1 e.2 t := by
  intro k
  induction k with
  | zero =>
    intro S c p fuel o svg hk _ ht
    rw [Finset.card_eq_zero] at hk
    rw [hk] at ht
    exact absurd ht.mem (by simp)
  | succ k ih =>
    intro S c p fuel o svg hk hc ht hf ho
    obtain ⟨fuel, rfl⟩ : ∃ f, fuel = f + 1 := ⟨fuel - 1, by omega⟩
    have hp : isPiece F p = true := hc.piece p ht.mem
    have hr := isPiece_range hF hp
    obtain ⟨c', htake, hc'⟩ : ∃ c', takeCorner c p.1 (enc F S p.1) o = .ok (c', code p.2 (turn F p)) ∧ Shows F H W c' (S.erase p) := by
      rcases ho with ⟨rfl, rfl⟩ | ⟨d, rfl, hd⟩
      · exact take_first hc hr ht.mem ht.single none
      · exact take_next hc hr ht.mem hd
    obtain ⟨q, t, hn, _⟩ := next_exists hF hp
    have hqp : q ≠ p := by
      intro he
      have h1 : walk p.1 (turn F p) t = walk p.1 (turn F p) 0 := by
        rw [walk_zero]
        have := hn.2.1
        rw [he] at this
        exact (congrArg Prod.fst this).symm
      have := walk_inj _ _ h1
      have := hn.1
      omega
    have hq : q.1 ≠ s.1 → q ∈ S.erase p := by
      intro hne
      rw [Finset.mem_erase]
      refine ⟨hqp, ?_⟩
      rcases ht.next p ht.mem q t hn with h | h
      · exact h
      · rw [h] at hne; exact absurd rfl hne
    have hmove := move_spec hF hc' hp hn (st := s.1) (d0 := s.2) hs hq
    unfold stepLoop
    simp only [bind, Except.bind]
    rw [htake]
    dsimp only
    rw [hmove]
    by_cases hqs : q.1 = s.1
    · rw [if_pos hqs]
      dsimp only
      rw [if_pos rfl]
      have hqeq : q = s := by
        rcases ht.next p ht.mem q t hn with h | h
        · by_contra hne
          have h2 : q.2 ≠ s.2 := fun h2 => hne (Prod.ext hqs h2)
          apply ht.single q.2 h2
          rw [← hqs]; exact h
        · exact h
      refine ⟨[], c', by simp [linesStr], by simp, by simpa using ht.mem, ?_, ?_⟩
      · have : S \ [p].toFinset = S.erase p := by ext x; simp [and_comm]
        rw [this]; exact hc'
      · intro e he
        simp only [List.nil_append, List.zip_cons_cons, List.zip_nil_right, List.mem_singleton] at he
        subst he
        exact ⟨t, by rw [← hqeq]; exact hn⟩
    · rw [if_neg hqs]
      dsimp only
      rw [if_neg hqs]
      have hqS := hq hqs
      have ht' : Tracing F s (S.erase p) q := by
        refine ⟨hqS, fun x hx y t' hxy => ?_, Or.inr ⟨?_, fun x hx t' hxq => ?_⟩, fun d hd hm => ht.single d hd (Finset.mem_of_mem_erase hm)⟩
        · have hx' := Finset.mem_of_mem_erase hx
          rcases ht.next x hx' y t' hxy with h | h
          · by_cases hyp : y = p
            · subst hyp
              rcases ht.prev with h' | h'
              · exact Or.inr h'
              · exact absurd hxy (h'.2 x hx' t')
            · exact Or.inl (Finset.mem_erase.2 ⟨hyp, h⟩)
          · exact Or.inr h
        · rcases ht.prev with h' | h'
          · rw [h']; simp
          · exact fun hm => h'.1 (Finset.mem_of_mem_erase hm)
        · have hx' := Finset.mem_of_mem_erase hx
          have := next_inj (hc.piece x hx') hp hxq hn
          rw [this] at hx
          simp at hx
      have hcard : (S.erase p).card = k := by
        rw [Finset.card_erase_of_mem ht.mem]; omega
      have hq2 : q.2 = turn F p := by rw [hn.2.1]
      obtain ⟨L, c'', h1, h2, h3, h4, h5⟩ := ih (S.erase p) c' q fuel (some (code p.2 (turn F p)))
        (svg ++ lineStr (pointOf p) (pointOf q)) hcard hc' ht' (by omega) (Or.inr ⟨p.2, by rw [hq2], by rw [hq2]; exact code_ne hp⟩)
      refine ⟨q :: L, c'', ?_, ?_, ?_, ?_, ?_⟩
      · have happ : (if q.1.1 = p.1.1 then 'h' :: intStr (q.1.2 - p.1.2) else 'v' :: intStr (q.1.1 - p.1.1)) =
            lineStr (pointOf p) (pointOf q) := by
          unfold lineStr pointOf
          dsimp only
          by_cases hh : q.1.1 = p.1.1
          · rw [if_pos hh, if_pos hh.symm]
          · rw [if_neg hh, if_neg (Ne.symm hh)]
        rw [happ, h1]
        simp [linesStr, List.append_assoc]
      · rw [List.nodup_cons]
        refine ⟨fun hm => ?_, h2⟩
        have := h3 p hm
        simp at this
      · intro x hx
        rw [List.mem_cons] at hx
        rcases hx with rfl | hx
        · exact ht.mem
        · exact Finset.mem_of_mem_erase (h3 x hx)
      · have : S \ (p :: q :: L).toFinset = S.erase p \ (q :: L).toFinset := by
          ext x
          simp only [Finset.mem_sdiff, List.mem_toFinset, List.mem_cons, not_or, Finset.mem_erase]
          tauto
        rw [this]; exact h4
      · intro e he
        rw [List.cons_append, List.zip_cons_cons, List.mem_cons] at he
        rcases he with rfl | he
        · exact ⟨t, hn⟩
        · exact h5 e he

end Verif.Svg
