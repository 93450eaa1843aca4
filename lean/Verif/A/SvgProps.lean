import Verif.A.SvgLoop
import Mathlib.Algebra.BigOperators.Group.List.Basic
import Mathlib.Algebra.BigOperators.Ring.Finset
import Mathlib.Data.Int.Cast.Lemmas

/-! # Properties of `bin2svg` -/

namespace Verif.Svg
open Verif.Py Verif.A

/-- How the side from `a` to `b` of a closed line crosses the horizontal half line that goes to the left from the middle of the square with left
edge `x` and upper edge `y`: 1 for upwards, -1 for downwards, 0 for not at all.  (For a vertical side; a horizontal one gives 0.) -/
def crossing (a b : Point) (x y : Int) : Int :=
  if a.1 ≤ x then if b.2 ≤ y ∧ y < a.2 then 1 else if a.2 ≤ y ∧ y < b.2 then -1 else 0 else 0

/-- How often closed lines go clockwise around the middle of the square with left edge `x` and upper edge `y` -/
def winding (polygons : List (List Point)) (x y : Int) : Int :=
  (polygons.map fun P => ((sides P).map fun s => crossing s.1 s.2 x y).sum).sum

variable {F : Int → Int → Bool} {H W : Nat}

/-- The straight line after the corner `p` goes in direction `e` and arrives at or goes through `v`. -/
def Covers (F : Int → Int → Bool) (p : Piece) (e : Dir) (v : Pos) : Prop :=
  turn F p = e ∧ ∃ s t q, 1 ≤ s ∧ s ≤ t ∧ Next F p q t ∧ walk p.1 e s = v

theorem covers_in {p : Piece} {e : Dir} {v : Pos} (h : Covers F p e v) : inE F v e = true := by
  obtain ⟨rfl, s, t, q, h1, h2, hn, rfl⟩ := h
  rcases Nat.lt_or_eq_of_le h2 with hlt | rfl
  · exact (hn.2.2.2 s h1 hlt).1
  · have := hn.2.2.1
    rw [hn.2.1] at this
    simp only [isPiece, Bool.and_eq_true] at this
    exact this.1

theorem covers_exists (hF : Within F H W) {e : Dir} {v : Pos} (h : inE F v e = true) : ∃ p, isPiece F p = true ∧ Covers F p e v := by
  obtain ⟨u, t, h1, h2, h3, h4, h5⟩ := run_begin hF h
  obtain ⟨d, hd, hturn⟩ := piece_of_out h3 h4
  obtain ⟨q, t', hn, _⟩ := next_exists hF hd
  refine ⟨(u, d), hd, hturn, t, t', q, h1, ?_, hn, h2⟩
  by_contra hlt
  have h6 := (h5 t' hn.1 (by omega)).2
  have h7 := hn.2.2.1
  rw [hn.2.1, hturn] at h7
  simp [isPiece, h6] at h7

theorem covers_unique {p p' : Piece} (hp : isPiece F p = true) (hp' : isPiece F p' = true) {e : Dir} {v : Pos} (h : Covers F p e v)
    (h' : Covers F p' e v) : p = p' := by
  have hno : ∀ {p p' : Piece} {s s' t' : Nat} {q' : Piece}, isPiece F p = true → turn F p = e → turn F p' = e → 1 ≤ s → s' ≤ t' →
      Next F p' q' t' → walk p.1 e s = walk p'.1 e s' → ¬ s < s' := by
    intro p p' s s' t' q' hp he he' hs hst hn hw hlt
    have hpp : p.1 = walk p'.1 e (s' - s) := by
      have hle := hlt.le
      unfold walk at hw ⊢
      rw [Prod.mk.injEq] at hw
      obtain ⟨h1, h2⟩ := hw
      ext <;> push_cast [Nat.cast_sub hle] <;> linarith
    have := (hn.2.2.2 (s' - s) (by omega) (by omega)).1
    rw [he', ← hpp, ← he, (turn_spec hp).2] at this
    cases this
  obtain ⟨he, s, t, q, h1, h2, hn, hw⟩ := h
  obtain ⟨he', s', t', q', h1', h2', hn', hw'⟩ := h'
  have e1 := hno hp he he' h1 h2' hn' (hw.trans hw'.symm)
  have e2 := hno hp' he' he h1' h2 hn (hw'.trans hw.symm)
  obtain rfl : s = s' := by omega
  have hpos : p.1 = p'.1 := by
    have := hw.trans hw'.symm
    unfold walk at this
    rw [Prod.mk.injEq] at this
    ext <;> linarith [this.1, this.2]
  obtain ⟨v1, d⟩ := p
  obtain ⟨v2, d'⟩ := p'
  obtain rfl : v1 = v2 := hpos
  rw [turn_inj hp hp' (he.trans he'.symm)]

open Classical in
theorem sum_covers (hF : Within F H W) (e : Dir) (v : Pos) :
    (∑ p ∈ allPieces F H W, if Covers F p e v then (1 : Int) else 0) = if inE F v e then 1 else 0 := by
  by_cases h : inE F v e = true
  · rw [if_pos h]
    obtain ⟨p, hp, hc⟩ := covers_exists hF h
    rw [Finset.sum_eq_single p]
    · rw [if_pos hc]
    · intro b hb hne
      rw [if_neg]
      intro hcb
      exact hne (covers_unique ((mem_allPieces hF b).1 hb) hp hcb hc)
    · intro hno
      exact absurd ((mem_allPieces hF p).2 hp) hno
  · rw [if_neg h]
    apply Finset.sum_eq_zero
    intro p _
    rw [if_neg]
    exact fun hc => h (covers_in hc)

open Classical in
/-- The corner after a corner -/
noncomputable def nextOf (F : Int → Int → Bool) (p : Piece) : Piece := if h : ∃ q t, Next F p q t then h.choose else p

theorem nextOf_eq {p q : Piece} {t : Nat} (h : Next F p q t) : nextOf F p = q := by
  have hex : ∃ q t, Next F p q t := ⟨q, t, h⟩
  unfold nextOf
  rw [dif_pos hex]
  obtain ⟨t', h'⟩ := hex.choose_spec
  exact (next_unique h' h).1

open Classical in
theorem crossing_covers {p q : Piece} {t : Nat} (hn : Next F p q t) (x y : Int) :
    crossing (pointOf p) (pointOf q) x y - crossing (pointOf p) (pointOf q) (x - 1) y =
      (if Covers F p .U (y, x) then 1 else 0) - if Covers F p .D (y + 1, x) then 1 else 0 := by
  obtain ⟨⟨m, n⟩, d⟩ := p
  have ht := hn.1
  have hq := hn.2.1
  have hcov : ∀ e v, Covers F ((m, n), d) e v ↔ turn F ((m, n), d) = e ∧ ∃ s, 1 ≤ s ∧ s ≤ t ∧ walk (m, n) e s = v := by
    intro e v
    constructor
    · rintro ⟨h1, s, t', q', h2, h3, h4, h5⟩
      rw [(next_unique h4 hn).2] at h3
      exact ⟨h1, s, h2, h3, h5⟩
    · rintro ⟨h1, s, h2, h3, h5⟩
      exact ⟨h1, s, t, q, h2, h3, hn, h5⟩
  rw [hcov, hcov, hq]
  generalize turn F ((m, n), d) = e
  have hU : (e = Dir.U ∧ ∃ s, 1 ≤ s ∧ s ≤ t ∧ walk (m, n) Dir.U s = (y, x)) ↔ e = Dir.U ∧ n = x ∧ m - t ≤ y ∧ y < m := by
    refine and_congr_right fun _ => ?_
    simp only [walk, Dir.vec, Prod.mk.injEq, mul_neg, mul_one, mul_zero, add_zero]
    constructor
    · rintro ⟨s, h1, h2, h3, h4⟩; omega
    · rintro ⟨h1, h2, h3⟩; exact ⟨(m - y).toNat, by omega, by omega, by omega, h1⟩
  have hD : (e = Dir.D ∧ ∃ s, 1 ≤ s ∧ s ≤ t ∧ walk (m, n) Dir.D s = (y + 1, x)) ↔ e = Dir.D ∧ n = x ∧ m ≤ y ∧ y < m + t := by
    refine and_congr_right fun _ => ?_
    simp only [walk, Dir.vec, Prod.mk.injEq, mul_one, mul_zero, add_zero]
    constructor
    · rintro ⟨s, h1, h2, h3, h4⟩; omega
    · rintro ⟨h1, h2, h3⟩; exact ⟨(y + 1 - m).toNat, by omega, by omega, by omega, h1⟩
  simp only [hU, hD]
  cases e <;> simp only [crossing, pointOf, walk, Dir.vec, reduceCtorEq, false_and, true_and, if_false, mul_neg, mul_one, mul_zero, add_zero] <;>
    split_ifs <;> omega

theorem sum_crossing (hF : Within F H W) (x y : Int) :
    ∑ p ∈ allPieces F H W, crossing (pointOf p) (pointOf (nextOf F p)) x y = if F y x then 1 else 0 := by
  have hstep : ∀ x, ∑ p ∈ allPieces F H W, crossing (pointOf p) (pointOf (nextOf F p)) x y =
      ∑ p ∈ allPieces F H W, crossing (pointOf p) (pointOf (nextOf F p)) (x - 1) y + (if F y x then 1 else 0) - if F y (x - 1) then 1 else 0 := by
    intro x
    have h : ∑ p ∈ allPieces F H W, (crossing (pointOf p) (pointOf (nextOf F p)) x y - crossing (pointOf p) (pointOf (nextOf F p)) (x - 1) y) =
        (if inE F (y, x) .U then 1 else 0) - if inE F (y + 1, x) .D then 1 else 0 := by
      classical
      rw [← sum_covers hF, ← sum_covers hF, ← Finset.sum_sub_distrib]
      apply Finset.sum_congr rfl
      intro p hp
      obtain ⟨q, t, hn, _⟩ := next_exists hF ((mem_allPieces hF p).1 hp)
      rw [nextOf_eq hn]
      exact crossing_covers hn x y
    rw [Finset.sum_sub_distrib] at h
    have e1 : inE F (y, x) .U = (F y x && !F y (x - 1)) := rfl
    have e2 : inE F (y + 1, x) .D = (F y (x - 1) && !F y x) := by
      simp [inE, inQ]
    rw [e1, e2] at h
    rw [sub_eq_iff_eq_add] at h
    rw [h]
    cases F y x <;> cases F y (x - 1) <;> simp <;> ring
  have hneg : ∀ x < 0, ∑ p ∈ allPieces F H W, crossing (pointOf p) (pointOf (nextOf F p)) x y = if F y x then 1 else 0 := by
    intro x hx
    have hfalse : ¬ F y x = true := fun h => by have := hF _ _ h; omega
    rw [if_neg hfalse]
    apply Finset.sum_eq_zero
    intro p hp
    have := isPiece_range hF ((mem_allPieces hF p).1 hp)
    unfold crossing
    rw [if_neg]
    simp only [pointOf]
    omega
  rcases lt_or_ge x 0 with hx | hx
  · exact hneg x hx
  · obtain ⟨n, rfl⟩ := Int.eq_ofNat_of_zero_le hx
    clear hx
    induction n with
    | zero => rw [hstep]; rw [hneg _ (by norm_num)]; omega
    | succ n ih =>
      rw [hstep, show ((n + 1 : Nat) : Int) - 1 = n by push_cast; ring, ih]; omega

theorem sides_map {α β : Type} (f : α → β) : ∀ l : List α, sides (l.map f) = (sides l).map (Prod.map f f)
  | [] => rfl
  | a :: l => by
    simp only [sides, List.map_cons]
    rw [show List.map f l ++ [f a] = List.map f (l ++ [a]) by simp, ← List.map_cons, List.zip_map]

theorem sides_fst {α : Type} : ∀ l : List α, (sides l).map Prod.fst = l
  | [] => rfl
  | a :: l => by
    unfold sides
    rw [List.map_fst_zip]
    simp

theorem winding_sum (hF : Within F H W) (Ls : List (List Piece)) (hc : ∀ L ∈ Ls, Cycle F L) (hn : Ls.flatten.Nodup)
    (hall : ∀ x, x ∈ Ls.flatten ↔ isPiece F x = true) (x y : Int) :
    winding (Ls.map (List.map pointOf)) x y = if F y x then 1 else 0 := by
  rw [← sum_crossing hF]
  have h1 : Ls.flatten.toFinset = allPieces F H W := by
    ext p
    rw [List.mem_toFinset, hall, mem_allPieces hF]
  rw [← h1, List.sum_toFinset _ hn, List.map_flatten, List.sum_flatten]
  unfold winding
  rw [List.map_map, List.map_map]
  congr 1
  apply List.map_congr_left
  intro L hL
  simp only [Function.comp]
  rw [sides_map, List.map_map]
  have h2 : ∀ e ∈ sides L, ((fun s : Point × Point => crossing s.1 s.2 x y) ∘ Prod.map pointOf pointOf) e =
      ((fun p => crossing (pointOf p) (pointOf (nextOf F p)) x y) ∘ Prod.fst) e := by
    intro e he
    obtain ⟨t, ht⟩ := (hc L hL).2 e he
    simp only [Function.comp, Prod.map, nextOf_eq ht]
  rw [List.map_congr_left h2, ← List.map_map, sides_fst]

/-- **C157.** For a matrix with entries 0 and 1, `bin2svg` ends without exception.  The result is the path of some closed lines with horizontal and
vertical sides.  They go once clockwise around each square with entry 1, and do not go around any other square. -/
theorem C157_area (high wide : Nat) (M : Nat → Nat → Int) (hM : ∀ i < high, ∀ j < wide, M i j = 0 ∨ M i j = 1) :
    ∃ polygons : List (List Point), bin2svg high wide M = .ok (polygons.flatMap polygonStr) ∧
      (∀ P ∈ polygons, P ≠ [] ∧ ∀ s ∈ sides P, (s.1.1 = s.2.1 ∧ s.1.2 ≠ s.2.2) ∨ (s.1.1 ≠ s.2.1 ∧ s.1.2 = s.2.2)) ∧
      (∀ i < high, ∀ j < wide, winding polygons j i = M i j) ∧
      ∀ x y : Int, ¬ (0 ≤ y ∧ y < high ∧ 0 ≤ x ∧ x < wide) → winding polygons x y = 0 := by
  obtain ⟨Ls, h1, h2, h3, h4⟩ := bin2svg_trace high wide M hM
  have hF := cells_within high wide M
  have hw := winding_sum hF Ls h2 h3 h4
  refine ⟨Ls.map (List.map pointOf), by rw [h1, List.flatMap_map], ?_, ?_, ?_⟩
  · intro P hP
    obtain ⟨L, hL, rfl⟩ := List.mem_map.1 hP
    obtain ⟨g1, g2⟩ := h2 L hL
    refine ⟨by simpa using g1, ?_⟩
    intro s hs
    rw [sides_map] at hs
    obtain ⟨e, he, rfl⟩ := List.mem_map.1 hs
    obtain ⟨t, hn⟩ := g2 e he
    have ht := hn.1
    have hpos := congrArg Prod.fst hn.2.1
    simp only [Prod.map, pointOf]
    rw [hpos]
    unfold walk
    cases turn (cells high wide M) e.1 <;> simp [Dir.vec] <;> omega
  · intro i hi j hj
    rw [hw]
    rcases hM i hi j hj with h | h
    · rw [h, if_neg]; simp [cells, h]
    · rw [h, if_pos]; simp [cells, h, hi, hj]
  · intro x y hxy
    rw [hw, if_neg]
    simp only [cells, decide_eq_true_eq]
    omega

/-- The docstring's example: two squares that meet in a corner are drawn one after the other. -/
example : bin2svg 2 2 (fun i j => if i = j then 1 else 0) = .ok "M0,0h1v1h-1M1,1h1v1h-1".toList := by decide +kernel

/-- A frame: the inner line goes the other way around. -/
example : bin2svg 3 3 (fun i j => if i = 1 ∧ j = 1 then 0 else 1) = .ok "M0,0h3v3h-3M1,1v1h1v-1".toList ∧
    winding [[(0, 0), (3, 0), (3, 3), (0, 3)], [(1, 1), (1, 2), (2, 2), (2, 1)]] 1 1 = 0 ∧
    winding [[(0, 0), (3, 0), (3, 3), (0, 3)], [(1, 1), (1, 2), (2, 2), (2, 1)]] 2 1 = 1 := by decide +kernel

/-! ### the lines follow the boundary -/

/-- The entry of the matrix for the square with left edge `x` and upper edge `y`, and 0 outside -/
def entryAt (high wide : Nat) (M : Nat → Nat → Int) (x y : Int) : Int :=
  if 0 ≤ y ∧ y < high ∧ 0 ≤ x ∧ x < wide then M y.toNat x.toNat else 0

/-- The side from `a` to `b` goes in direction `d`, and one of its unit steps ends at `v`. -/
def StepTo (d v a b : Point) : Prop :=
  ∃ s t : Nat, 1 ≤ s ∧ s ≤ t ∧ v = (a.1 + s * d.1, a.2 + s * d.2) ∧ b = (a.1 + t * d.1, a.2 + t * d.2)

open Classical in
/-- The number of sides of closed lines that contain the unit step in direction `d` that ends at `v` -/
noncomputable def stepCount (polygons : List (List Point)) (d v : Point) : Nat :=
  (polygons.map fun P => (sides P).countP fun s => StepTo d v s.1 s.2).sum

theorem stepTo_covers {p q : Piece} {t : Nat} (hn : Next F p q t) (e : Dir) (v : Pos) :
    StepTo (e.vec.2, e.vec.1) (v.2, v.1) (pointOf p) (pointOf q) ↔ Covers F p e v := by
  obtain ⟨⟨m, n⟩, d⟩ := p
  have ht := hn.1
  have hq := hn.2.1
  constructor
  · rintro ⟨s, t', h1, h2, h3, h4⟩
    rw [hq] at h4
    have he : turn F ((m, n), d) = e := by
      revert h4
      cases turn F ((m, n), d) <;> cases e <;> simp [pointOf, walk, Dir.vec] <;> omega
    have htt : t = t' := by
      rw [he] at h4
      revert h4
      cases e <;> simp [pointOf, walk, Dir.vec]
    subst htt
    refine ⟨he, s, t, q, h1, h2, hn, ?_⟩
    rw [Prod.mk.injEq] at h3
    exact Prod.ext h3.2.symm h3.1.symm
  · rintro ⟨he, s, t', q', h1, h2, h3, h4⟩
    obtain ⟨rfl, rfl⟩ := next_unique hn h3
    refine ⟨s, t, h1, h2, ?_, ?_⟩
    · rw [← h4]; rfl
    · rw [hq, he]; rfl

theorem stepCount_eq (hF : Within F H W) (Ls : List (List Piece)) (hc : ∀ L ∈ Ls, Cycle F L) (hn : Ls.flatten.Nodup)
    (hall : ∀ x, x ∈ Ls.flatten ↔ isPiece F x = true) (e : Dir) (v : Pos) :
    stepCount (Ls.map (List.map pointOf)) (e.vec.2, e.vec.1) (v.2, v.1) = if inE F v e then 1 else 0 := by
  classical
  have h0 := sum_covers hF e v
  have h1 : Ls.flatten.toFinset = allPieces F H W := by
    ext p
    rw [List.mem_toFinset, hall, mem_allPieces hF]
  rw [← h1, List.sum_toFinset _ hn, List.map_flatten, List.sum_flatten] at h0
  have h2 : ((stepCount (Ls.map (List.map pointOf)) (e.vec.2, e.vec.1) (v.2, v.1) : Nat) : Int) = if inE F v e then 1 else 0 := by
    rw [← h0]
    unfold stepCount
    rw [List.map_map, List.map_map]
    have h3 : ∀ l : List Nat, ((l.sum : Nat) : Int) = (l.map fun k : Nat => (k : Int)).sum := by
      intro l
      induction l with
      | nil => rfl
      | cons a l ih => simp [ih]
    rw [h3, List.map_map]
    congr 1
    apply List.map_congr_left
    intro L hL
    simp only [Function.comp]
    rw [sides_map, List.countP_map]
    have h4 : ∀ l : List (Piece × Piece), (∀ e' ∈ l, ∃ t, Next F e'.1 e'.2 t) →
        ((l.countP ((fun s : Point × Point => decide (StepTo (e.vec.2, e.vec.1) (v.2, v.1) s.1 s.2)) ∘ Prod.map pointOf pointOf) : Nat) : Int) =
          ((l.map Prod.fst).map fun p => if Covers F p e v then (1 : Int) else 0).sum := by
      intro l
      induction l with
      | nil => intro _; rfl
      | cons a l ih =>
        intro h
        obtain ⟨t, ht⟩ := h a (by simp)
        rw [List.countP_cons, List.map_cons, List.map_cons, List.sum_cons, ← ih fun e' he' => h e' (List.mem_cons_of_mem _ he')]
        have hiff := stepTo_covers ht e v
        simp only [Function.comp, Prod.map, decide_eq_true_eq, hiff]
        split <;> push_cast <;> ring
    rw [h4 _ (hc L hL).2, sides_fst]
  split at h2 <;> split <;> first | exact_mod_cast h2 | contradiction

/-- **C157.** The same closed lines run exactly once along each border between a square with entry 1 and one with entry 0 (or the outside), with the
entry 1 on the right side, and along no other unit step.  So no side is superfluous. -/
theorem C157_boundary (high wide : Nat) (M : Nat → Nat → Int) (hM : ∀ i < high, ∀ j < wide, M i j = 0 ∨ M i j = 1) :
    ∃ polygons : List (List Point), bin2svg high wide M = .ok (polygons.flatMap polygonStr) ∧
      (∀ P ∈ polygons, P ≠ [] ∧ ∀ s ∈ sides P, (s.1.1 = s.2.1 ∧ s.1.2 ≠ s.2.2) ∨ (s.1.1 ≠ s.2.1 ∧ s.1.2 = s.2.2)) ∧
      let E := entryAt high wide M
      ∀ x y : Int,
        stepCount polygons (0, -1) (x, y) = (if E x y = 1 ∧ E (x - 1) y = 0 then 1 else 0) ∧
        stepCount polygons (1, 0) (x, y) = (if E (x - 1) y = 1 ∧ E (x - 1) (y - 1) = 0 then 1 else 0) ∧
        stepCount polygons (0, 1) (x, y) = (if E (x - 1) (y - 1) = 1 ∧ E x (y - 1) = 0 then 1 else 0) ∧
        stepCount polygons (-1, 0) (x, y) = if E x (y - 1) = 1 ∧ E x y = 0 then 1 else 0 := by
  obtain ⟨Ls, h1, h2, h3, h4⟩ := bin2svg_trace high wide M hM
  have hF := cells_within high wide M
  have hw := stepCount_eq hF Ls h2 h3 h4
  have hE1 : ∀ x y : Int, entryAt high wide M x y = 1 ↔ cells high wide M y x = true := by
    intro x y
    unfold entryAt cells
    rw [decide_eq_true_eq]
    by_cases h : 0 ≤ y ∧ y < high ∧ 0 ≤ x ∧ x < wide
    · rw [if_pos h]; tauto
    · rw [if_neg h]
      constructor
      · intro h'; omega
      · rintro ⟨a, b, c, d, _⟩; exact absurd ⟨a, b, c, d⟩ h
  have hE0 : ∀ x y : Int, entryAt high wide M x y = 0 ↔ cells high wide M y x = false := by
    intro x y
    have h01 : entryAt high wide M x y = 0 ∨ entryAt high wide M x y = 1 := by
      unfold entryAt
      by_cases h : 0 ≤ y ∧ y < high ∧ 0 ≤ x ∧ x < wide
      · rw [if_pos h]; exact hM _ (by omega) _ (by omega)
      · rw [if_neg h]; exact Or.inl rfl
    have := hE1 x y
    rcases h01 with h | h
    · rw [h] at this ⊢
      have hf : ¬ cells high wide M y x = true := fun hc => by simp [hc] at this
      simpa using hf
    · rw [h] at this ⊢
      simp at this
      simp [this]
  refine ⟨Ls.map (List.map pointOf), by rw [h1, List.flatMap_map], ?_, ?_⟩
  · intro P hP
    obtain ⟨L, hL, rfl⟩ := List.mem_map.1 hP
    obtain ⟨g1, g2⟩ := h2 L hL
    refine ⟨by simpa using g1, ?_⟩
    intro s hs
    rw [sides_map] at hs
    obtain ⟨e, he, rfl⟩ := List.mem_map.1 hs
    obtain ⟨t, hn⟩ := g2 e he
    have ht := hn.1
    have hpos := congrArg Prod.fst hn.2.1
    simp only [Prod.map, pointOf]
    rw [hpos]
    unfold walk
    cases turn (cells high wide M) e.1 <;> simp [Dir.vec] <;> omega
  · intro E x y
    have hU := hw .U (y, x)
    have hR := hw .R (y, x)
    have hD := hw .D (y, x)
    have hL := hw .L (y, x)
    simp only [Dir.vec, inE, inQ] at hU hR hD hL
    simp only [E, hE1, hE0]
    refine ⟨?_, ?_, ?_, ?_⟩
    · rw [hU]; simp
    · rw [hR]; simp
    · rw [hD]; simp
    · rw [hL]; simp

/-! ### corners -/

theorem sides_length {α : Type} (L : List α) : (sides L).length = L.length := by
  cases L <;> simp [sides]

theorem sides_getElem {α : Type} (L : List α) (i : Nat) (h : i < (sides L).length) :
    (sides L)[i] = (L[i]'(by rwa [sides_length] at h), L[(i + 1) % L.length]'(Nat.mod_lt _ (by rw [sides_length] at h; omega))) := by
  cases L with
  | nil => simp [sides] at h
  | cons a l =>
    rw [sides_length] at h
    simp only [List.length_cons] at h
    simp only [sides, List.getElem_zip, Prod.mk.injEq, true_and]
    by_cases hi : i < l.length
    · have : (i + 1) % (a :: l).length = i + 1 := Nat.mod_eq_of_lt (by simpa using hi)
      simp [List.getElem_append_left hi, Nat.mod_eq_of_lt (show i + 1 < l.length + 1 by omega)]
    · have : i = l.length := by omega
      subst this
      simp

theorem sides_sides {α : Type} (L : List α) {w : (α × α) × (α × α)} (h : w ∈ sides (sides L)) : w.1 ∈ sides L ∧ w.2 ∈ sides L ∧ w.1.2 = w.2.1 := by
  obtain ⟨i, hi, rfl⟩ := List.mem_iff_getElem.1 h
  rw [sides_getElem]
  refine ⟨List.getElem_mem _, List.getElem_mem _, ?_⟩
  simp only [sides_getElem, sides_length]

/-- **C157.** Horizontal and vertical sides alternate: each corner of the closed lines is a right angle. -/
theorem C157_corners (high wide : Nat) (M : Nat → Nat → Int) (hM : ∀ i < high, ∀ j < wide, M i j = 0 ∨ M i j = 1) :
    ∃ polygons : List (List Point), bin2svg high wide M = .ok (polygons.flatMap polygonStr) ∧
      ∀ P ∈ polygons, P ≠ [] ∧ (∀ s ∈ sides P, (s.1.1 = s.2.1 ∧ s.1.2 ≠ s.2.2) ∨ (s.1.1 ≠ s.2.1 ∧ s.1.2 = s.2.2)) ∧
        ∀ c ∈ sides (sides P), (c.1.1.1 = c.1.2.1 ↔ c.2.1.2 = c.2.2.2) := by
  obtain ⟨Ls, h1, h2, h3, h4⟩ := bin2svg_trace high wide M hM
  refine ⟨Ls.map (List.map pointOf), by rw [h1, List.flatMap_map], ?_⟩
  intro P hP
  obtain ⟨L, hL, rfl⟩ := List.mem_map.1 hP
  obtain ⟨g1, g2⟩ := h2 L hL
  refine ⟨by simpa using g1, ?_, ?_⟩
  · intro s hs
    rw [sides_map] at hs
    obtain ⟨e, he, rfl⟩ := List.mem_map.1 hs
    obtain ⟨t, hn⟩ := g2 e he
    have ht := hn.1
    have hpos := congrArg Prod.fst hn.2.1
    simp only [Prod.map, pointOf]
    rw [hpos]
    unfold walk
    cases turn (cells high wide M) e.1 <;> simp [Dir.vec] <;> omega
  · intro c hc
    rw [sides_map, sides_map] at hc
    obtain ⟨⟨e, e'⟩, he, rfl⟩ := List.mem_map.1 hc
    obtain ⟨k1, k2, k3⟩ := sides_sides L he
    obtain ⟨t, hn⟩ := g2 _ k1
    obtain ⟨t', hn'⟩ := g2 _ k2
    have ht := hn.1
    have ht' := hn'.1
    have hpos := congrArg Prod.fst hn.2.1
    have hdir := congrArg Prod.snd hn.2.1
    have hpos' := congrArg Prod.fst hn'.2.1
    simp only at k3 hpos hdir hpos' ht ht'
    have hturn : turn (cells high wide M) e'.1 = (turn (cells high wide M) e.1).right ∨ turn (cells high wide M) e'.1 = (turn (cells high wide M) e.1).left := by
      rw [← hdir, ← k3]
      conv_lhs => unfold turn
      conv_rhs => unfold turn
      split <;> simp
    simp only [Prod.map, pointOf]
    rw [hpos, hpos']
    unfold walk
    revert hturn
    generalize turn (cells high wide M) e'.1 = d'
    generalize turn (cells high wide M) e.1 = d
    cases d <;> cases d' <;> simp [Dir.vec, Dir.right, Dir.left] <;> omega

/-! ### the string determines the lines -/

/-- A character that can follow a number in a path -/
def Mark (c : Char) : Prop := c = 'M' ∨ c = 'h' ∨ c = 'v' ∨ c = ','

theorem mark_digit {c : Char} (h : Mark c) : c.isDigit = false := by
  rcases h with rfl | rfl | rfl | rfl <;> rfl

theorem intStr_split (a b : Int) (c d : Char) (r s : List Char) (hc : Mark c) (hd : Mark d) (h : intStr a ++ c :: r = intStr b ++ d :: s) :
    a = b ∧ c :: r = d :: s := by
  have hneg : ∀ z : Int, z < 0 → intStr z = '-' :: natStr z.natAbs := fun z hz => by unfold intStr; rw [if_pos hz]
  have hnat : ∀ (m n : Nat), natStr m ++ c :: r = natStr n ++ d :: s → m = n ∧ c :: r = d :: s := by
    intro m n hmn
    obtain ⟨h1, h2⟩ := digits_split _ _ _ _ _ _ (fun _ => natStr_digit) (fun _ => natStr_digit) (mark_digit hc) (mark_digit hd) hmn
    exact ⟨natStr_inj h1, h2⟩
  by_cases ha : a < 0 <;> by_cases hb : b < 0
  · rw [hneg a ha, hneg b hb] at h
    simp only [List.cons_append, List.cons.injEq, true_and] at h
    obtain ⟨h1, h2⟩ := hnat _ _ h
    exact ⟨by omega, h2⟩
  · rw [hneg a ha, intStr_nonneg (by omega)] at h
    exact absurd h.symm (natStr_append_ne _ _ rfl _ _)
  · rw [hneg b hb, intStr_nonneg (by omega)] at h
    exact absurd h (natStr_append_ne _ _ rfl _ _)
  · rw [intStr_nonneg (by omega), intStr_nonneg (by omega)] at h
    obtain ⟨h1, h2⟩ := hnat _ _ h
    exact ⟨by omega, h2⟩

/-- The line between the points is horizontal or vertical. -/
def Straight (a b : Point) : Prop := (a.1 = b.1 ∧ a.2 ≠ b.2) ∨ (a.1 ≠ b.1 ∧ a.2 = b.2)

theorem lines_split : ∀ (l l' : List Point) (a : Point) (r s : List Char), (∀ e ∈ (a :: l).zip l, Straight e.1 e.2) →
    (∀ e ∈ (a :: l').zip l', Straight e.1 e.2) → linesStr (a :: l) ++ 'M' :: r = linesStr (a :: l') ++ 'M' :: s → l = l' ∧ r = s := by
  have hline : ∀ (a b : Point) (l : List Point) (r : List Char), ∃ c t, Mark c ∧ linesStr (b :: l) ++ 'M' :: r = c :: t := by
    intro a b l r
    cases l with
    | nil => exact ⟨'M', r, Or.inl rfl, rfl⟩
    | cons c l =>
      simp only [linesStr, lineStr]
      split
      · exact ⟨'h', _, Or.inr (Or.inl rfl), rfl⟩
      · exact ⟨'v', _, Or.inr (Or.inr (Or.inl rfl)), rfl⟩
  intro l
  induction l with
  | nil =>
    intro l' a r s _ _ h
    cases l' with
    | nil => simp only [linesStr, List.nil_append, List.cons.injEq, true_and] at h; exact ⟨rfl, h⟩
    | cons b l' =>
      exfalso
      simp only [linesStr, lineStr, List.nil_append] at h
      split at h <;> simp at h
  | cons b l ih =>
    intro l' a r s hl hl' h
    cases l' with
    | nil =>
      exfalso
      simp only [linesStr, lineStr, List.nil_append] at h
      split at h <;> simp at h
    | cons b' l' =>
      obtain ⟨c, t, hc, ht⟩ := hline a b l r
      obtain ⟨d, u, hd, hu⟩ := hline a b' l' s
      simp only [linesStr, List.append_assoc] at h
      rw [ht, hu] at h
      have h1 : Straight a b := hl (a, b) (by simp)
      have h1' : Straight a b' := hl' (a, b') (by simp)
      have key : b = b' ∧ c :: t = d :: u := by
        unfold lineStr at h
        unfold Straight at h1 h1'
        by_cases e : a.2 = b.2 <;> by_cases e' : a.2 = b'.2
        · rw [if_pos e, if_pos e'] at h
          simp only [List.cons_append, List.cons.injEq, true_and] at h
          obtain ⟨g1, g2⟩ := intStr_split _ _ _ _ _ _ hc hd h
          exact ⟨Prod.ext (by omega) (by omega), g2⟩
        · rw [if_pos e, if_neg e'] at h
          simp at h
        · rw [if_neg e, if_pos e'] at h
          simp at h
        · rw [if_neg e, if_neg e'] at h
          simp only [List.cons_append, List.cons.injEq, true_and] at h
          obtain ⟨g1, g2⟩ := intStr_split _ _ _ _ _ _ hc hd h
          exact ⟨Prod.ext (by omega) (by omega), g2⟩
      obtain ⟨rfl, hcd⟩ := key
      rw [← ht, ← hu] at hcd
      obtain ⟨g1, g2⟩ := ih l' b r s (fun e he => hl e (by rw [List.zip_cons_cons]; exact List.mem_cons_of_mem _ he))
        (fun e he => hl' e (by rw [List.zip_cons_cons]; exact List.mem_cons_of_mem _ he)) hcd
      exact ⟨by rw [g1], g2⟩

theorem zip_sides {α : Type} (a : α) (l : List α) {e : α × α} (h : e ∈ (a :: l).zip l) : e ∈ sides (a :: l) := by
  have : (a :: l).zip (l ++ [a]) = (a :: l).zip l ++ [((a :: l).getLast (by simp), a)] := by
    have hg : ∀ (l : List α) (b : α), (b :: l).zip (l ++ [a]) = (b :: l).zip l ++ [((b :: l).getLast (by simp), a)] := by
      intro l
      induction l with
      | nil => intro b; rfl
      | cons c l ih => intro b; simp [ih c]
    exact hg l a
  show e ∈ (a :: l).zip (l ++ [a])
  rw [this]
  exact List.mem_append_left _ h

/-- **C157.** The path string determines the closed lines: different lists of closed lines with horizontal and vertical sides have different paths. -/
theorem C157_string (polygons polygons' : List (List Point))
    (h : ∀ P ∈ polygons, P ≠ [] ∧ ∀ s ∈ sides P, (s.1.1 = s.2.1 ∧ s.1.2 ≠ s.2.2) ∨ (s.1.1 ≠ s.2.1 ∧ s.1.2 = s.2.2))
    (h' : ∀ P ∈ polygons', P ≠ [] ∧ ∀ s ∈ sides P, (s.1.1 = s.2.1 ∧ s.1.2 ≠ s.2.2) ∨ (s.1.1 ≠ s.2.1 ∧ s.1.2 = s.2.2))
    (heq : polygons.flatMap polygonStr = polygons'.flatMap polygonStr) : polygons = polygons' := by
  have hM : ∀ Q : List (List Point), (∀ P ∈ Q, P ≠ []) → ∃ t, Q.flatMap polygonStr ++ ['M'] = 'M' :: t := by
    intro Q hQ
    cases Q with
    | nil => exact ⟨[], rfl⟩
    | cons P Q =>
      have := hQ P (by simp)
      cases P with
      | nil => exact absurd rfl this
      | cons a l => exact ⟨_, rfl⟩
  induction polygons generalizing polygons' with
  | nil =>
    cases polygons' with
    | nil => rfl
    | cons P Q =>
      have := (h' P (by simp)).1
      cases P with
      | nil => exact absurd rfl this
      | cons a l => simp [polygonStr] at heq
  | cons P Q ih =>
    have hP := h P (by simp)
    cases P with
    | nil => exact absurd rfl hP.1
    | cons a l =>
      cases polygons' with
      | nil => simp [polygonStr] at heq
      | cons P' Q' =>
        have hP' := h' P' (by simp)
        cases P' with
        | nil => exact absurd rfl hP'.1
        | cons a' l' =>
          have hQ := fun P hP => h P (List.mem_cons_of_mem _ hP)
          have hQ' := fun P hP => h' P (List.mem_cons_of_mem _ hP)
          obtain ⟨t, ht⟩ := hM Q fun P hP => (hQ P hP).1
          obtain ⟨t', ht'⟩ := hM Q' fun P hP => (hQ' P hP).1
          have heq2 := congrArg (· ++ ['M']) heq
          simp only [List.flatMap_cons, polygonStr, List.append_assoc, List.cons_append, List.cons.injEq, true_and] at heq2
          rw [ht, ht'] at heq2
          obtain ⟨e1, heq3⟩ := intStr_split _ _ _ _ _ _ (Or.inr (Or.inr (Or.inr rfl))) (Or.inr (Or.inr (Or.inr rfl))) heq2
          simp only [List.cons.injEq, true_and] at heq3
          have hl : ∀ (b : Point) (l : List Point) (r : List Char), ∃ c u, Mark c ∧ linesStr (b :: l) ++ 'M' :: r = c :: u := by
            intro b l r
            cases l with
            | nil => exact ⟨'M', r, Or.inl rfl, rfl⟩
            | cons c l =>
              simp only [linesStr, lineStr]
              split
              · exact ⟨'h', _, Or.inr (Or.inl rfl), rfl⟩
              · exact ⟨'v', _, Or.inr (Or.inr (Or.inl rfl)), rfl⟩
          obtain ⟨c, u, hc, hu⟩ := hl a l t
          obtain ⟨c', u', hc', hu'⟩ := hl a' l' t'
          rw [hu, hu'] at heq3
          obtain ⟨e2, heq4⟩ := intStr_split _ _ _ _ _ _ hc hc' heq3
          rw [← hu, ← hu'] at heq4
          obtain rfl : a = a' := Prod.ext e1 e2
          obtain ⟨e3, e4⟩ := lines_split l l' a t t' (fun e he => hP.2 e (zip_sides a l he)) (fun e he => hP'.2 e (zip_sides a l' he)) heq4
          subst e3
          have : Q.flatMap polygonStr = Q'.flatMap polygonStr := by
            have : Q.flatMap polygonStr ++ ['M'] = Q'.flatMap polygonStr ++ ['M'] := by rw [ht, ht', e4]
            exact List.append_cancel_right this
          rw [ih Q' hQ hQ' this]

example : polygonStr [(0, 0), (3, 0), (3, 3), (0, 3)] = "M0,0h3v3h-3".toList := by decide +kernel

end Verif.Svg
