import Verif.A.SvgTrace

/-! # The main loop of `bin2svg` draws the whole boundary -/

namespace Verif.Svg
open Verif.Py Verif.A

variable {F : Int → Int → Bool} {H W : Nat}

/-- The order in which positions are searched -/
def NotBefore (v w : Pos) : Prop := v.1 < w.1 ∨ (v.1 = w.1 ∧ v.2 ≤ w.2)

theorem cornerfinder_spec {c : Corners} {S : Finset Piece} (hF : Within F H W) (h : Shows F H W c S) : ∀ (fuel m n : Nat), m ≤ H → n ≤ W →
    (∀ x ∈ S, NotBefore (m, n) x.1) → (H + 1) * (W + 1) ≤ fuel + (m * (W + 1) + n) →
    (cornerfinder c fuel (m, n) = .ok none ∧ S = ∅) ∨
    ∃ p ∈ S, cornerfinder c fuel (m, n) = .ok (some (p.1, enc F S p.1)) ∧ ∀ x ∈ S, NotBefore p.1 x.1 := by
  intro fuel
  induction fuel with
  | zero =>
    intro m n hm hn _ hf
    exfalso
    have h1 : m * (W + 1) ≤ H * (W + 1) := Nat.mul_le_mul_right _ hm
    have h2 : (H + 1) * (W + 1) = H * (W + 1) + (W + 1) := by ring
    omega
  | succ fuel ih =>
    intro m n hm hn hS hf
    unfold cornerfinder
    rw [get_shows h (v := ((m : Int), (n : Int))) ⟨by simp, by simpa using hm, by simp, by simpa using hn⟩]
    simp only [bind, Except.bind]
    by_cases h0 : enc F S (m, n) = 0
    · rw [if_pos h0, h.wide, h.high]
      have hno := (enc_zero h.piece _).1 h0
      by_cases h1 : n < W
      · rw [if_pos (by push_cast; omega)]
        have := ih m (n + 1) hm (by omega) (fun x hx => ?_) (by omega)
        · push_cast at this; exact this
        · rcases hS x hx with hlt | ⟨he, hle⟩
          · exact Or.inl hlt
          · refine Or.inr ⟨he, ?_⟩
            rcases lt_or_eq_of_le hle with hlt | heq
            · simp only at hlt ⊢; push_cast; omega
            · exfalso
              apply hno x.2
              have : ((m : Int), (n : Int)) = x.1 := Prod.ext he heq
              rw [this]; exact hx
      · have hnW : n = W := by omega
        have hup : ∀ x ∈ S, (m : Int) < x.1.1 := by
          intro x hx
          rcases hS x hx with hlt | ⟨he, hle⟩
          · exact hlt
          · exfalso
            have hr := isPiece_range hF (h.piece x hx)
            simp only at hle he
            apply hno x.2
            have : ((m : Int), (n : Int)) = x.1 := Prod.ext he (by simp only; omega)
            rw [this]; exact hx
        rw [if_neg (by push_cast; omega)]
        by_cases h2 : m < H
        · rw [if_pos (by push_cast; omega)]
          have := ih (m + 1) 0 (by omega) (by omega) (fun x hx => ?_) ?_
          · push_cast at this; exact this
          · have h3 := hup x hx
            have hr := isPiece_range hF (h.piece x hx)
            rcases lt_or_eq_of_le (show ((m + 1 : Nat) : Int) ≤ x.1.1 by push_cast; omega) with hlt | heq
            · exact Or.inl hlt
            · exact Or.inr ⟨heq, by simpa using hr.2.2.1⟩
          · have : (m + 1) * (W + 1) = m * (W + 1) + (W + 1) := by ring
            omega
        · rw [if_neg (by push_cast; omega)]
          refine Or.inl ⟨rfl, ?_⟩
          rw [Finset.eq_empty_iff_forall_notMem]
          intro x hx
          have h3 := hup x hx
          have hr := isPiece_range hF (h.piece x hx)
          omega
    · rw [if_neg h0]
      right
      have : ∃ d, (((m : Int), (n : Int)), d) ∈ S := by
        by_contra hcon
        exact h0 ((enc_zero h.piece _).2 fun d hd => hcon ⟨d, hd⟩)
      obtain ⟨d, hd⟩ := this
      exact ⟨_, hd, rfl, hS⟩

/-- The set of corners is closed under going forward and backward. -/
def Closed (F : Int → Int → Bool) (S : Finset Piece) : Prop :=
  (∀ x ∈ S, ∀ y t, Next F x y t → y ∈ S) ∧ ∀ y ∈ S, ∀ x t, isPiece F x = true → Next F x y t → x ∈ S

/-- At the first corner there is no other one left. -/
theorem first_single (hF : Within F H W) {S : Finset Piece} (hS : ∀ x ∈ S, isPiece F x = true) (hc : Closed F S) {v : Pos}
    (hmin : ∀ x ∈ S, NotBefore v x.1) {e : Dir} (he : (v, e) ∈ S) : ∀ d, d ≠ e → (v, d) ∉ S := by
  intro d hde hd
  have key : ∀ nw ne sw se a b, pieceQ nw ne sw se a = true → pieceQ nw ne sw se b = true → a ≠ b →
      (a = .D ∨ b = .D) ∨ (a = .L ∧ turnQ nw ne sw se a = .U) ∨ (b = .L ∧ turnQ nw ne sw se b = .U) := by decide
  have hup : ∀ q, q ∈ S → q.1 = v → q.2 ≠ .D := by
    intro q hq hqv hD
    obtain ⟨p, t, hp, hn⟩ := prev_exists hF (hS q hq)
    have hpS := hc.2 q hq p t hp hn
    have ht := hn.1
    have h2 : turn F p = .D := by
      have := congrArg Prod.snd hn.2.1
      rw [hD] at this; exact this.symm
    have h1 := congrArg Prod.fst hn.2.1
    rw [hqv, h2] at h1
    have hm := hmin p hpS
    unfold NotBefore at hm
    rw [h1] at hm
    simp [walk, Dir.vec] at hm
    omega
  have hup2 : ∀ q, q ∈ S → q.1 = v → turn F q ≠ .U := by
    intro q hq hqv hU
    obtain ⟨r, t, hn, _⟩ := next_exists hF (hS q hq)
    have hrS := hc.1 q hq r t hn
    have ht := hn.1
    have h1 := congrArg Prod.fst hn.2.1
    rw [hqv, hU] at h1
    have hm := hmin r hrS
    unfold NotBefore at hm
    rw [h1] at hm
    simp [walk, Dir.vec] at hm
    omega
  rcases key _ _ _ _ d e (hS _ hd) (hS _ he) hde with (h | h) | ⟨_, h⟩ | ⟨_, h⟩
  · exact hup _ hd rfl h
  · exact hup _ he rfl h
  · exact hup2 _ hd rfl h
  · exact hup2 _ he rfl h

/-- The pairs of neighbours in a closed line -/
def sides {α : Type} : List α → List (α × α)
  | [] => []
  | a :: l => (a :: l).zip (l ++ [a])

/-- A closed line as a part of an SVG path; the last side is not drawn. -/
def polygonStr : List Point → List Char
  | [] => []
  | a :: l => 'M' :: (intStr a.1 ++ ',' :: intStr a.2) ++ linesStr (a :: l)

/-- A closed line of corners -/
def Cycle (F : Int → Int → Bool) (L : List Piece) : Prop := L ≠ [] ∧ ∀ e ∈ sides L, ∃ t, Next F e.1 e.2 t

theorem zip_next {α : Type} : ∀ (l : List α) (a s x : α), x ∈ a :: l → ∃ y, (x, y) ∈ (a :: l).zip (l ++ [s]) ∧ (y ∈ a :: l ∨ y = s) := by
  intro l
  induction l with
  | nil => intro a s x hx; simp at hx; subst hx; exact ⟨s, by simp, Or.inr rfl⟩
  | cons b l ih =>
    intro a s x hx
    rw [List.mem_cons] at hx
    rcases hx with rfl | hx
    · exact ⟨b, by simp, Or.inl (by simp)⟩
    · obtain ⟨y, h1, h2⟩ := ih b s x hx
      refine ⟨y, by rw [List.cons_append, List.zip_cons_cons]; exact List.mem_cons_of_mem _ h1, ?_⟩
      rcases h2 with h2 | h2
      · exact Or.inl (List.mem_cons_of_mem _ h2)
      · exact Or.inr h2

theorem zip_prev {α : Type} : ∀ (l : List α) (a s y : α), y ∈ l ++ [s] → ∃ x, (x, y) ∈ (a :: l).zip (l ++ [s]) ∧ x ∈ a :: l := by
  intro l
  induction l with
  | nil => intro a s y hy; simp at hy; subst hy; exact ⟨a, by simp, by simp⟩
  | cons b l ih =>
    intro a s y hy
    rw [List.cons_append, List.mem_cons] at hy
    rcases hy with rfl | hy
    · exact ⟨a, by simp, by simp⟩
    · obtain ⟨x, h1, h2⟩ := ih b s y hy
      exact ⟨x, by rw [List.cons_append, List.zip_cons_cons]; exact List.mem_cons_of_mem _ h1, List.mem_cons_of_mem _ h2⟩

theorem closed_sdiff {S : Finset Piece} (hS : ∀ x ∈ S, isPiece F x = true) (hc : Closed F S) {L : List Piece} (hL : Cycle F L)
    (hLS : ∀ x ∈ L, x ∈ S) : Closed F (S \ L.toFinset) := by
  obtain ⟨hne, hside⟩ := hL
  cases L with
  | nil => exact absurd rfl hne
  | cons a l =>
    constructor
    · intro x hx y t hn
      rw [Finset.mem_sdiff, List.mem_toFinset] at hx ⊢
      refine ⟨hc.1 x hx.1 y t hn, fun hy => hx.2 ?_⟩
      have hy' : y ∈ l ++ [a] := by
        rw [List.mem_cons] at hy; simp; tauto
      obtain ⟨z, h1, h2⟩ := zip_prev l a a y hy'
      obtain ⟨t', hz⟩ := hside _ h1
      rw [next_inj (hS x hx.1) (hS z (hLS z h2)) hn hz]
      exact h2
    · intro y hy x t hx hn
      rw [Finset.mem_sdiff, List.mem_toFinset] at hy ⊢
      refine ⟨hc.2 y hy.1 x t hx hn, fun hxL => hy.2 ?_⟩
      obtain ⟨z, h1, h2⟩ := zip_next l a a x hxL
      obtain ⟨t', hz⟩ := hside _ h1
      rw [(next_unique hn hz).1]
      rcases h2 with h2 | h2
      · exact h2
      · rw [h2]; simp

theorem svgLoop_spec (hF : Within F H W) : ∀ (k : Nat) (S : Finset Piece) (c : Corners) (m n fuel : Nat) (svg : List Char),
    S.card = k → Shows F H W c S → Closed F S → m ≤ H → n ≤ W → (∀ x ∈ S, NotBefore (m, n) x.1) → S.card < fuel →
    S.card ≤ 4 * ((H + 1) * (W + 1)) →
    ∃ Ls : List (List Piece), svgLoop fuel c (m, n) svg = .ok (svg ++ Ls.flatMap fun L => polygonStr (L.map pointOf)) ∧
      (∀ L ∈ Ls, Cycle F L) ∧ Ls.flatten.Nodup ∧ ∀ x, x ∈ Ls.flatten ↔ x ∈ S := by
  intro k
  induction k using Nat.strong_induction_on with
  | _ k ih =>
    intro S c m n fuel svg hk hsh hcl hm hn hmin hf hbound
    obtain ⟨fuel, rfl⟩ : ∃ f, fuel = f + 1 := ⟨fuel - 1, by omega⟩
    unfold svgLoop
    simp only [bind, Except.bind]
    rcases cornerfinder_spec hF hsh (c.high * c.wide + 1) m n hm hn hmin (by rw [hsh.high, hsh.wide]; omega) with ⟨h1, h2⟩ | ⟨p, hp, h1, h2⟩
    · rw [h1]
      refine ⟨[], by simp, by simp, by simp, by simp [h2]⟩
    · rw [h1]
      dsimp only
      have hpp := hsh.piece p hp
      have hr := isPiece_range hF hpp
      have hsingle := first_single hF hsh.piece hcl h2 (e := p.2) hp
      have htr : Tracing F p S p := ⟨hp, fun x hx y t hxy => Or.inl (hcl.1 x hx y t hxy), Or.inl rfl, hsingle⟩
      unfold step
      obtain ⟨L, c', h3, h4, h5, h6, h7⟩ := stepLoop_spec hF hpp k S c p (4 * (c.high * c.wide) + 1) none
        ('M' :: (intStr p.1.2 ++ ',' :: intStr p.1.1)) hk hsh htr (by rw [hsh.high, hsh.wide]; omega) (Or.inl ⟨rfl, rfl⟩)
      rw [h3]
      dsimp only
      have hcy : Cycle F (p :: L) := ⟨by simp, h7⟩
      have hlt : (S \ (p :: L).toFinset).card < S.card := by
        apply Finset.card_lt_card
        rw [Finset.ssubset_iff_subset_ne]
        refine ⟨Finset.sdiff_subset, fun he => ?_⟩
        rw [← he, Finset.mem_sdiff] at hp
        exact hp.2 (by simp)
      have hpos : ((p.1.1.toNat : Int), (p.1.2.toNat : Int)) = p.1 := by ext <;> simp <;> omega
      have hmin' : ∀ x ∈ S \ (p :: L).toFinset, NotBefore ((p.1.1.toNat : Int), (p.1.2.toNat : Int)) x.1 := by
        intro x hx
        rw [hpos]
        exact h2 x (Finset.mem_sdiff.1 hx).1
      obtain ⟨Ls, g1, g2, g3, g4⟩ := ih _ (by omega) (S \ (p :: L).toFinset) c' p.1.1.toNat p.1.2.toNat fuel
        (svg ++ ('M' :: (intStr p.1.2 ++ ',' :: intStr p.1.1) ++ linesStr ((p :: L).map pointOf))) rfl h6
        (closed_sdiff hsh.piece hcl hcy h5) (by omega) (by omega) hmin' (by omega) (by omega)
      refine ⟨(p :: L) :: Ls, ?_, ?_, ?_, ?_⟩
      · rw [hpos] at g1
        rw [g1]
        simp [polygonStr, pointOf, List.append_assoc]
      · intro L' hL'
        rw [List.mem_cons] at hL'
        rcases hL' with rfl | hL'
        · exact hcy
        · exact g2 L' hL'
      · rw [List.flatten_cons, List.nodup_append]
        refine ⟨h4, g3, ?_⟩
        intro x hx y hy hxy
        rw [← hxy, g4, Finset.mem_sdiff] at hy
        exact hy.2 (by simpa using hx)
      · intro x
        rw [List.flatten_cons, List.mem_append, g4, Finset.mem_sdiff, List.mem_toFinset]
        constructor
        · rintro (h | h)
          · exact h5 x h
          · exact h.1
        · intro hx
          by_cases hxL : x ∈ p :: L
          · exact Or.inl hxL
          · exact Or.inr ⟨hx, hxL⟩

/-- All corners -/
def allPieces (F : Int → Int → Bool) (H W : Nat) : Finset Piece :=
  ((Finset.Icc (0 : Int) H ×ˢ Finset.Icc (0 : Int) W) ×ˢ (Finset.univ : Finset Dir)).filter fun p => isPiece F p = true

theorem mem_allPieces (hF : Within F H W) (p : Piece) : p ∈ allPieces F H W ↔ isPiece F p = true := by
  unfold allPieces
  simp only [Finset.mem_filter, Finset.mem_product, Finset.mem_Icc, Finset.mem_univ, and_true]
  constructor
  · exact fun h => h.2
  · intro h
    have := isPiece_range hF h
    exact ⟨⟨⟨this.1, this.2.1⟩, this.2.2⟩, h⟩

theorem card_allPieces : (allPieces F H W).card ≤ 4 * ((H + 1) * (W + 1)) := by
  unfold allPieces
  refine le_trans (Finset.card_filter_le _ _) ?_
  rw [Finset.card_product, Finset.card_product, Int.card_Icc, Int.card_Icc]
  have : (Finset.univ : Finset Dir).card = 4 := by decide
  rw [this]
  apply le_of_eq
  have h1 : ((H : Int) + 1 - 0).toNat = H + 1 := by omega
  have h2 : ((W : Int) + 1 - 0).toNat = W + 1 := by omega
  rw [h1, h2]; ring

/-- The squares with the entry 1 -/
def cells (high wide : Nat) (M : Nat → Nat → Int) (m n : Int) : Bool :=
  decide (0 ≤ m ∧ m < high ∧ 0 ≤ n ∧ n < wide ∧ M m.toNat n.toNat = 1)

theorem cells_within (high wide : Nat) (M : Nat → Nat → Int) : Within (cells high wide M) high wide := by
  intro m n h
  simp only [cells, decide_eq_true_eq] at h
  omega

theorem padded_eq (high wide : Nat) (M : Nat → Nat → Int) (hM : ∀ i < high, ∀ j < wide, M i j = 0 ∨ M i j = 1) (m n : Nat) :
    padded high wide M m n = if cells high wide M ((m : Int) - 1) ((n : Int) - 1) then 1 else 0 := by
  unfold padded cells
  by_cases h : 1 ≤ m ∧ m ≤ high ∧ 1 ≤ n ∧ n ≤ wide
  · rw [if_pos h]
    have e1 : ((m : Int) - 1).toNat = m - 1 := by omega
    have e2 : ((n : Int) - 1).toNat = n - 1 := by omega
    rw [e1, e2]
    rcases hM (m - 1) (by omega) (n - 1) (by omega) with h' | h'
    · rw [h']; simp
    · rw [h', if_pos]
      simp only [decide_eq_true_eq]
      exact ⟨by omega, by omega, by omega, by omega, trivial⟩
  · rw [if_neg h, if_neg]
    simp only [decide_eq_true_eq]
    omega

theorem shows_init (high wide : Nat) (M : Nat → Nat → Int) (hM : ∀ i < high, ∀ j < wide, M i j = 0 ∨ M i j = 1) :
    Shows (cells high wide M) high wide (bin2corners high wide M) (allPieces (cells high wide M) high wide) := by
  refine ⟨rfl, rfl, fun m n hm hn => ?_, fun p hp => (mem_allPieces (cells_within high wide M) p).1 hp⟩
  have key : ∀ nw ne sw se : Bool, cornerKind (if nw then 1 else 0, if ne then 1 else 0, if sw then 1 else 0, if se then 1 else 0) =
      encQ nw ne sw se (pieceQ nw ne sw se .U) (pieceQ nw ne sw se .R) (pieceQ nw ne sw se .D) (pieceQ nw ne sw se .L) := by decide
  unfold bin2corners
  dsimp only
  rw [padded_eq _ _ _ hM, padded_eq _ _ _ hM, padded_eq _ _ _ hM, padded_eq _ _ _ hM]
  have hdec : ∀ d, decide ((((m : Int), (n : Int)), d) ∈ allPieces (cells high wide M) high wide) = isPiece (cells high wide M) ((m, n), d) := by
    intro d
    rw [Bool.eq_iff_iff, decide_eq_true_iff, mem_allPieces (cells_within high wide M)]
  unfold enc
  rw [hdec, hdec, hdec, hdec]
  push_cast
  rw [show ((m : Int) + 1 - 1) = m by ring, show ((n : Int) + 1 - 1) = n by ring, key]
  rfl

theorem bin2svg_trace (high wide : Nat) (M : Nat → Nat → Int) (hM : ∀ i < high, ∀ j < wide, M i j = 0 ∨ M i j = 1) :
    ∃ Ls : List (List Piece), bin2svg high wide M = .ok (Ls.flatMap fun L => polygonStr (L.map pointOf)) ∧
      (∀ L ∈ Ls, Cycle (cells high wide M) L) ∧ Ls.flatten.Nodup ∧ ∀ x, x ∈ Ls.flatten ↔ isPiece (cells high wide M) x = true := by
  have hF := cells_within high wide M
  have hsh := shows_init high wide M hM
  have hcl : Closed (cells high wide M) (allPieces (cells high wide M) high wide) := by
    constructor
    · intro x _ y t hn
      rw [mem_allPieces hF]; exact hn.2.2.1
    · intro y _ x t hx _
      rw [mem_allPieces hF]; exact hx
  have hmin : ∀ x ∈ allPieces (cells high wide M) high wide, NotBefore (((0 : Nat) : Int), ((0 : Nat) : Int)) x.1 := by
    intro x hx
    have hr := isPiece_range hF ((mem_allPieces hF x).1 hx)
    rcases lt_or_eq_of_le hr.1 with h | h
    · exact Or.inl (by simpa using h)
    · exact Or.inr ⟨by simpa using h, by simpa using hr.2.2.1⟩
  have hcard := card_allPieces (F := cells high wide M) (H := high) (W := wide)
  obtain ⟨Ls, h1, h2, h3, h4⟩ := svgLoop_spec hF _ (allPieces (cells high wide M) high wide) (bin2corners high wide M) 0 0
    (4 * ((bin2corners high wide M).high * (bin2corners high wide M).wide) + 1) [] rfl hsh hcl (by omega) (by omega) hmin
    (by rw [hsh.high, hsh.wide]; omega) hcard
  refine ⟨Ls, ?_, h2, h3, fun x => by rw [h4, mem_allPieces hF]⟩
  unfold bin2svg
  simpa using h1

end Verif.Svg
