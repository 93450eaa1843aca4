import Verif.SigPerm.Props3
import Verif.A.Det
import Verif.Perm.Props4

/-! # C171: determinant and parities of signed permutations -/

namespace Verif.SG
open Verif.Py Verif.P Verif.BV Verif.A

/-- The rows of a matrix, as `integer_determinant` reads them. -/
def Mat.toRows (m : Mat) : List (List Int) := (List.range m.rows).map fun i => (List.range m.cols).map fun j => m.get i j

/-- The number of negative entries among the first `n`. -/
def SigPerm.negatives (s : SigPerm) (n : Nat) : Nat := ((List.range n).filter fun i => decide (s.value i < 0)).length

theorem negatives_prod {s : SigPerm} (h : WF s) (n : Nat) :
    (-1 : ℤˣ) ^ s.negatives n = ∏ i : Fin n, if s.val i < 0 then (-1 : ℤˣ) else 1 := by
  rw [Fin.prod_univ_eq_prod_range (fun i => if s.val i < 0 then (-1 : ℤˣ) else 1) n]
  induction n with
  | zero => rfl
  | succ n ih =>
    rw [Finset.prod_range_succ, ← ih]
    unfold SigPerm.negatives
    rw [List.range_succ, List.filter_append, List.length_append, pow_add]
    congr 1
    split_ifs with e <;> simp [value_eq h, e]

theorem negatives_weight {s : SigPerm} (h : WF s) {n : Nat} (hn : s.length ≤ n) : s.negatives n = s.binv.weight := by
  rw [weight_eq]
  unfold SigPerm.negatives
  have hp : (((List.range n).filter fun i => decide (s.value i < 0)).map s.perm.get).Perm s.binv.exposet := by
    rw [List.perm_ext_iff_of_nodup]
    · intro j
      simp only [List.mem_map, List.mem_filter, List.mem_range, decide_eq_true_eq, value_eq h, val_neg]
      constructor
      · rintro ⟨i, ⟨_, h2⟩, rfl⟩
        exact h2
      · intro hj
        obtain ⟨i, rfl⟩ := h.constructed.wf.get_bijective.2 j
        refine ⟨i, ⟨?_, hj⟩, rfl⟩
        have h1 := h.exposet_lt hj
        have := (h.signed.mono hn).lt_iff (i := i)
        rw [nabs_val] at this
        omega
    · exact (List.nodup_range.filter _).map h.constructed.wf.get_bijective.1
    · exact (exposet_pairwise _).imp fun h => Nat.ne_of_lt h
  rw [← hp.length_eq, List.length_map]

/-- **C171.** `integer_determinant(s.matrix(n))`: minus one to the power of the parity of the permutation plus the weight of the negator. -/
theorem C171_determinant (s : SigPerm) (hs : Finite s) (n : Nat) (hn : s.length ≤ n) :
    ∃ m, s.matrix (some n) = .ok m ∧ integerDeterminant m.toRows = .ok ((-1) ^ (s.perm.parity + s.binv.weight)) ∧
      s.binv.weight = s.negatives n := by
  have h := hs.wf
  obtain ⟨m, m1, m2, m3, m4⟩ := matrix_spec h hn
  refine ⟨m, m1, ?_, (negatives_weight h hn).symm⟩
  have hN : s.perm.length ≤ n := by have := h.length; omega
  have hb := h.constructed.wf.maps_below n (Or.inl ⟨h.finite, hN⟩)
  have hi := h.constructed.wf.get_bijective.1
  rw [C25_integer_determinant n _ (by simp [Mat.toRows, m2]) (by
    intro row hr
    obtain ⟨i, _, rfl⟩ := List.mem_map.1 hr
    simp [m3])]
  congr 1
  have e : (Matrix.of fun i j : Fin n => (m.toRows.getD i []).getD j 0) =
      Matrix.of fun i j : Fin n => (((if s.val j < 0 then (-1 : ℤˣ) else 1 : ℤˣ) : ℤ)) *
        ((1 : Matrix (Fin n) (Fin n) ℤ).submatrix id (finPerm s.perm.get n hi hb)) i j := by
    ext i j
    have e1 : (m.toRows.getD i []).getD j 0 = m.get i j := by
      simp [Mat.toRows, m2, m3, List.getD_eq_getElem?_getD]
    rw [Matrix.of_apply, Matrix.of_apply, e1, m4 i j i.2 j.2, Matrix.submatrix_apply, Matrix.one_apply]
    unfold matEntry
    rw [nabs_val]
    have e2 : (id i = finPerm s.perm.get n hi hb j) ↔ s.perm.get j = i := by
      rw [id, Fin.ext_iff, finPerm_apply]
      exact eq_comm
    by_cases c : s.perm.get j = i
    · rw [if_pos c, if_pos (e2.2 c)]
      split_ifs <;> simp
    · rw [if_neg c, if_neg (fun x => c (e2.1 x)), mul_zero]
  rw [e, Matrix.det_mul_row (fun j : Fin n => (((if s.val j < 0 then (-1 : ℤˣ) else 1 : ℤˣ) : ℤ))), Matrix.det_permute', Matrix.det_one, mul_one,
    (C16_parity_sign s.perm h.constructed h.finite n hN hi hb).2, ← Units.coe_prod, ← negatives_prod h, negatives_weight h hn]
  push_cast
  rw [pow_add, mul_comm]

example : (new { sequence := some [-3, 0, 1] }).bind (fun s => (s.matrix none).bind fun m => integerDeterminant m.toRows) = .ok (-1) := by decide +kernel

theorem parity_weight_mul {s t u : SigPerm} (hs : WF s) (ht : WF t) (hu : WF u) (h : ∀ i, u.val i = ext s.val (t.val i)) :
    u.perm.parity = (s.perm.parity + t.perm.parity) % 2 ∧ u.binv.weight % 2 = (s.binv.weight + t.binv.weight) % 2 := by
  have hg : ∀ i, u.perm.get i = s.perm.get (t.perm.get i) := fun i => by
    rw [← nabs_val, h, nabs_ext, nabs_val, nabs_val]
  obtain ⟨N, hN1, hN2, hN3⟩ : ∃ N, s.length ≤ N ∧ t.length ≤ N ∧ u.length ≤ N :=
    ⟨max s.length (max t.length u.length), by omega, by omega, by omega⟩
  have ls : s.perm.length ≤ N := by have := hs.length; omega
  have lt : t.perm.length ≤ N := by have := ht.length; omega
  have lu : u.perm.length ≤ N := by have := hu.length; omega
  have bs := hs.constructed.wf.maps_below N (Or.inl ⟨hs.finite, ls⟩)
  have bt := ht.constructed.wf.maps_below N (Or.inl ⟨ht.finite, lt⟩)
  have bu := hu.constructed.wf.maps_below N (Or.inl ⟨hu.finite, lu⟩)
  have is := hs.constructed.wf.get_bijective.1
  have it := ht.constructed.wf.get_bijective.1
  have iu := hu.constructed.wf.get_bijective.1
  constructor
  · have e : finPerm u.perm.get N iu bu = finPerm s.perm.get N is bs * finPerm t.perm.get N it bt := by
      ext i
      rw [Equiv.Perm.mul_apply, finPerm_apply, finPerm_apply, finPerm_apply, hg]
    have h1 := congrArg Equiv.Perm.sign e
    rw [Equiv.Perm.sign_mul, (C16_parity_sign _ hu.constructed hu.finite N lu iu bu).2, (C16_parity_sign _ hs.constructed hs.finite N ls is bs).2,
      (C16_parity_sign _ ht.constructed ht.finite N lt it bt).2, ← pow_add, neg_one_pow_inj] at h1
    have := (C16_parity_sign _ hu.constructed hu.finite N lu iu bu).1
    omega
  · rw [← neg_one_pow_inj, pow_add, ← negatives_weight hs hN1, ← negatives_weight ht hN2, ← negatives_weight hu hN3, negatives_prod hs, negatives_prod ht,
      negatives_prod hu, ← Equiv.prod_comp (finPerm t.perm.get N it bt) (fun i : Fin N => if s.val i < 0 then (-1 : ℤˣ) else 1), ← Finset.prod_mul_distrib]
    refine Finset.prod_congr rfl fun i _ => ?_
    rw [finPerm_apply, h, ← nabs_val t i]
    rcases nabs_cases (t.val i) with ⟨h1, h2⟩ | ⟨h1, h2⟩
    · rw [if_neg (show ¬ t.val i < 0 by omega), mul_one]
      rw [show ext s.val (t.val i) = s.val (nabs (t.val i)) by unfold ext; rw [if_neg (by omega)]]
    · rw [if_pos h1]
      rw [show ext s.val (t.val i) = inv (s.val (nabs (t.val i))) by unfold ext; rw [if_pos h1]]
      unfold inv
      split_ifs <;> first | omega | simp

/-- **C171.** The parity of the permutation, and the weight of the negator modulo two, add up in products. -/
theorem C171_product (s t : SigPerm) (hs : Finite s) (ht : Finite t) :
    ∃ u, s.mul t = .ok u ∧ u.perm.parity = (s.perm.parity + t.perm.parity) % 2 ∧ u.binv.weight % 2 = (s.binv.weight + t.binv.weight) % 2 := by
  obtain ⟨u, u1, u2, u3, u4, u5⟩ := mul_spec hs.wf ht.wf
  exact ⟨u, u1, parity_weight_mul hs.wf ht.wf u2 (fun i => by rw [u5])⟩

/-- **C171.** The inverse has the same parity, and as many negations. -/
theorem C171_inverse (s : SigPerm) (hs : Finite s) :
    ∃ u, s.inverse = .ok u ∧ u.perm.parity = s.perm.parity ∧ u.binv.weight = s.binv.weight := by
  obtain ⟨u, u1, u2, _, _, u5, u6⟩ := inverse_spec hs.wf
  refine ⟨u, u1, ?_, ?_⟩
  · obtain ⟨x, _, x2, _, _, x5⟩ := mul_spec hs.wf u2
    have h1 := (parity_weight_mul hs.wf u2 x2 (fun i => by rw [x5])).1
    have hx : ∀ i : Nat, x.val i = i := fun i => by rw [x5]; exact u6 i
    have h2 := (parity_weight_mul x2 x2 x2 (fun i => by rw [hx, ext_nat, hx])).1
    have h3 : s.perm.parity < 2 := Nat.mod_lt _ (by omega)
    have h4 : u.perm.parity < 2 := Nat.mod_lt _ (by omega)
    omega
  · rw [weight_eq, weight_eq]
    have key : ∀ i, i ∈ u.binv.exposet ↔ s.perm.get i ∈ s.binv.exposet := by
      intro i
      have hi := u5 i
      have hn : u.perm.get (s.perm.get i) = i := by
        rw [← nabs_val u, ← nabs_val s, ← nabs_ext, hi, nabs_nat]
      rw [← val_neg s]
      conv_lhs => rw [← hn]
      rw [← val_neg u, ← nabs_val s]
      unfold ext at hi
      split_ifs at hi with c
      · unfold inv at hi
        constructor <;> intro <;> omega
      · constructor <;> intro <;> omega
    have hp : (u.binv.exposet.map s.perm.get).Perm s.binv.exposet := by
      rw [List.perm_ext_iff_of_nodup]
      · intro j
        rw [List.mem_map]
        constructor
        · rintro ⟨i, hi, rfl⟩
          exact (key i).1 hi
        · intro hj
          obtain ⟨i, rfl⟩ := hs.wf.constructed.wf.get_bijective.2 j
          exact ⟨i, (key i).2 hj, rfl⟩
      · exact List.Nodup.map hs.wf.constructed.wf.get_bijective.1 ((exposet_pairwise _).imp fun h => Nat.ne_of_lt h)
      · exact (exposet_pairwise _).imp fun h => Nat.ne_of_lt h
    rw [← hp.length_eq, List.length_map]

example : ((new { sequence := some [-3, 0, -2, 3, -5] }).bind (·.inverse)).map (fun u => (u.perm.parity, u.binv.weight)) = .ok (0, 3) := by decide +kernel

example : ((new { sequence := some [-3, 0, 1] }).bind fun s => (new { sequence := some [0, -2] }).bind fun t => (s.mul t).map fun u => (u.perm.parity, u.binv.weight)) = .ok (0, 2) := by
  decide +kernel

end Verif.SG
