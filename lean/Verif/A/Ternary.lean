import Mathlib.Tactic.Ring
import Mathlib.Tactic.LinearCombination
import Mathlib.Data.List.GetD
import Mathlib.Algebra.BigOperators.Group.List.Basic
import Verif.Py.Basic
import Verif.A.Det

/-! # Model of a/balanced_ternary_walsh_matrix; property C134 -/

namespace Verif.A
open Verif.Py

/-! ## Model -/

/-- `itertools.product([-1, 0, 1], repeat=n)` -/
def ternaryProduct : Nat → List (List Int)
  | 0 => [[]]
  | n + 1 => [-1, 0, 1].flatMap fun x => (ternaryProduct n).map (x :: ·)

/-- a/balanced_ternary_walsh_matrix/__init__.py:7-11 -/
def ternaryVectors (n : Nat) : Mat := (ternaryProduct n).map List.reverse

/-- `np.dot` of two vectors -/
def dotProduct (v w : List Int) : Int := (List.zipWith (· * ·) v w).sum

/-- a/balanced_ternary_walsh_matrix/__init__.py:5-21, both results -/
def balancedTernaryWalshMatrix (n : Int) : Except Err (Mat × Mat) :=
  if n < 0 then .error .valueError
  else
    let vectors := ternaryVectors n.toNat
    let natural : Mat := vectors.map fun v => vectors.map fun w => dotProduct v w
    let result : Mat := natural.map fun row => row.map fun x => x.fmod 3
    let result : Mat := result.map fun row => row.map fun x => if x = 2 then -1 else x
    .ok (result, vectors)

/-! ## Specification -/

/-- the number with the given digits (the first one is that of the units) -/
def ternaryValue : List Int → Int
  | [] => 0
  | x :: v => x + 3 * ternaryValue v

theorem ternaryValue_append (v : List Int) (x : Int) : ternaryValue (v ++ [x]) = ternaryValue v + x * 3 ^ v.length := by
  induction v with
  | nil => simp [ternaryValue]
  | cons y v ih =>
    rw [List.cons_append, ternaryValue, ih, ternaryValue, List.length_cons]
    ring

theorem ternaryProduct_spec : ∀ n : Nat, (ternaryProduct n).length = 3 ^ n ∧
    ∀ i : Nat, i < 3 ^ n → ∃ t : List Int, (ternaryProduct n)[i]? = some t ∧ t.length = n ∧ (∀ x ∈ t, x = -1 ∨ x = 0 ∨ x = 1) ∧ 2 * ternaryValue t.reverse = 2 * (i : Int) - (3 ^ n - 1)
  | 0 => by
    refine ⟨rfl, fun i hi => ?_⟩
    have : i = 0 := by omega
    subst this
    exact ⟨[], rfl, rfl, by simp, by simp [ternaryValue]⟩
  | n + 1 => by
    obtain ⟨h1, h2⟩ := ternaryProduct_spec n
    have e : ternaryProduct (n + 1) = (ternaryProduct n).map (-1 :: ·) ++ ((ternaryProduct n).map (0 :: ·) ++ (ternaryProduct n).map (1 :: ·)) := by
      rw [ternaryProduct]; simp
    have hpow : 3 ^ (n + 1) = 3 * 3 ^ n := by rw [Nat.pow_succ]; ring
    refine ⟨by rw [e]; simp only [List.length_append, List.length_map, h1]; omega, fun i hi => ?_⟩
    have step : ∀ (x : Int) (j : Nat), j < 3 ^ n → (x = -1 ∨ x = 0 ∨ x = 1) → ∃ t, (ternaryProduct n)[j]? = some t ∧ (x :: t).length = n + 1 ∧
        (∀ y ∈ x :: t, y = -1 ∨ y = 0 ∨ y = 1) ∧ 2 * ternaryValue (x :: t).reverse = 2 * (x * 3 ^ n) + (2 * (j : Int) - (3 ^ n - 1)) := by
      intro x j hj hx
      obtain ⟨t, t1, t2, t3, t4⟩ := h2 j hj
      refine ⟨t, t1, by simp [t2], ?_, ?_⟩
      · intro y hy
        rcases List.mem_cons.1 hy with rfl | hy
        · exact hx
        · exact t3 y hy
      · rw [List.reverse_cons, ternaryValue_append, List.length_reverse, t2, mul_add, t4]
        ring
    rw [e]
    have hpowi : (3 : Int) ^ (n + 1) = 3 * 3 ^ n := by ring
    by_cases c1 : i < 3 ^ n
    · obtain ⟨t, t1, t2, t3, t4⟩ := step (-1) i c1 (by simp)
      refine ⟨-1 :: t, ?_, t2, t3, ?_⟩
      · rw [List.getElem?_append_left (by simpa [h1] using c1), List.getElem?_map, t1]; rfl
      · rw [t4, hpowi]; ring
    · by_cases c2 : i < 2 * 3 ^ n
      · obtain ⟨t, t1, t2, t3, t4⟩ := step 0 (i - 3 ^ n) (by omega) (by simp)
        refine ⟨0 :: t, ?_, t2, t3, ?_⟩
        · rw [List.getElem?_append_right (by simp [h1]; omega), List.length_map, h1, List.getElem?_append_left (by simp [h1]; omega), List.getElem?_map, t1]; rfl
        · rw [t4, hpowi, Nat.cast_sub (by omega)]; push_cast; ring
      · obtain ⟨t, t1, t2, t3, t4⟩ := step 1 (i - 3 ^ n - 3 ^ n) (by omega) (by simp)
        refine ⟨1 :: t, ?_, t2, t3, ?_⟩
        · rw [List.getElem?_append_right (by simp [h1]; omega), List.length_map, h1, List.getElem?_append_right (by simp [h1]; omega), List.length_map, h1, List.getElem?_map, t1]; rfl
        · rw [t4, hpowi, Nat.cast_sub (by omega), Nat.cast_sub (by omega)]; push_cast; ring

/-- **C134.** The matrix of vectors has `3 ** n` rows. The row `i` contains the balanced ternary digits of `i - (3 ** n - 1) / 2`, units first. -/
theorem C134_vectors (n : Nat) : ∃ m v, balancedTernaryWalshMatrix n = .ok (m, v) ∧ v.length = 3 ^ n ∧
    ∀ i : Nat, i < 3 ^ n → ∃ t : List Int, v[i]? = some t ∧ t.length = n ∧ (∀ x ∈ t, x = -1 ∨ x = 0 ∨ x = 1) ∧ 2 * ternaryValue t = 2 * (i : Int) - (3 ^ n - 1) := by
  unfold balancedTernaryWalshMatrix
  rw [if_neg (by omega)]
  refine ⟨_, _, rfl, ?_⟩
  rw [Int.toNat_natCast]
  obtain ⟨h1, h2⟩ := ternaryProduct_spec n
  unfold ternaryVectors
  refine ⟨by rw [List.length_map, h1], fun i hi => ?_⟩
  obtain ⟨t, t1, t2, t3, t4⟩ := h2 i hi
  exact ⟨t.reverse, by rw [List.getElem?_map, t1]; rfl, by simp [t2], by simpa using t3, t4⟩

/-- **C134.** The entry of the matrix in row `i` and column `j` is the one among -1, 0, 1 that is congruent modulo 3 to the sum of the products of the digits of the vectors `i` and `j`. -/
theorem C134_matrix (n : Nat) (m v : Mat) (h : balancedTernaryWalshMatrix n = .ok (m, v)) : m.length = 3 ^ n ∧ (∀ row ∈ m, row.length = 3 ^ n) ∧
    ∀ i j : Nat, i < 3 ^ n → j < 3 ^ n → ∃ (row : List Int) (x : Int) (s t : List Int), m[i]? = some row ∧ row[j]? = some x ∧ v[i]? = some s ∧ v[j]? = some t ∧
      (x = -1 ∨ x = 0 ∨ x = 1) ∧ (3 : Int) ∣ x - ((List.range n).map fun k => s.getD k 0 * t.getD k 0).sum := by
  obtain ⟨m', v', h', h1, h2⟩ := C134_vectors n
  rw [h] at h'
  cases h'
  unfold balancedTernaryWalshMatrix at h
  rw [if_neg (by omega)] at h
  simp only [Int.toNat_natCast, Except.ok.injEq, Prod.mk.injEq, List.map_map] at h
  obtain ⟨hm, hv⟩ := h
  rw [hv] at hm
  subst hm
  refine ⟨by simp [h1], ?_, fun i j hi hj => ?_⟩
  · intro row hrow
    obtain ⟨w, _, rfl⟩ := List.mem_map.1 hrow
    simp [h1]
  · obtain ⟨s, s1, s2, _⟩ := h2 i hi
    obtain ⟨t, t1, t2, _⟩ := h2 j hj
    refine ⟨_, _, s, t, by rw [List.getElem?_map, s1]; rfl, by simp only [Function.comp, List.getElem?_map, t1]; rfl, s1, t1, ?_⟩
    have hdot : dotProduct s t = ((List.range n).map fun k => s.getD k 0 * t.getD k 0).sum := by
      unfold dotProduct
      congr 1
      apply List.ext_getElem
      · simp [s2, t2]
      · intro k hk _
        have hk' : k < n := by simpa [s2, t2] using hk
        rw [List.getElem_zipWith, List.getElem_map, List.getElem_range, List.getD_eq_getElem _ _ (by omega), List.getD_eq_getElem _ _ (by omega)]
    rw [← hdot]
    dsimp only
    generalize dotProduct s t = d
    have e : d.fmod 3 = d % 3 := Int.fmod_eq_emod_of_nonneg d (by omega)
    rw [e]
    split <;> omega

/-- **C134.** The matrix is symmetric. -/
theorem C134_symmetric (n : Nat) (m v : Mat) (h : balancedTernaryWalshMatrix n = .ok (m, v)) (i j : Nat) (hi : i < 3 ^ n) (hj : j < 3 ^ n) : m.get i j = m.get j i := by
  obtain ⟨_, _, h3⟩ := C134_matrix n m v h
  obtain ⟨r1, x1, s1, t1, a1, a2, a3, a4, a5, a6⟩ := h3 i j hi hj
  obtain ⟨r2, x2, s2, t2, b1, b2, b3, b4, b5, b6⟩ := h3 j i hj hi
  rw [a3] at b4
  rw [a4] at b3
  cases b3
  cases b4
  unfold Mat.get
  simp only [List.getD_eq_getElem?_getD, a1, a2, b1, b2, Option.getD_some]
  have : ((List.range n).map fun k => s1.getD k 0 * t1.getD k 0) = (List.range n).map fun k => t1.getD k 0 * s1.getD k 0 := by
    apply List.map_congr_left
    intro k _
    ring
  simp only [List.getD_eq_getElem?_getD] at this a6 b6
  rw [this] at a6
  omega

theorem C134_negative (n : Int) (h : n < 0) : balancedTernaryWalshMatrix n = .error .valueError := by
  unfold balancedTernaryWalshMatrix
  rw [if_pos h]

example : balancedTernaryWalshMatrix 1 = .ok ([[1, 0, -1], [0, 0, 0], [-1, 0, 1]], [[-1], [0], [1]]) := by decide +kernel
example : (balancedTernaryWalshMatrix 2).map (fun p => p.1.get 0 8) = .ok 1 ∧ (balancedTernaryWalshMatrix 2).map (fun p => p.2.getD 2 []) = .ok [1, -1] := by decide +kernel

end Verif.A
