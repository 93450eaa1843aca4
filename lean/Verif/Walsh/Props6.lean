import Verif.Walsh.Model2
import Verif.Walsh.Props3

/-!
# C164: the inverse of a `WalshPerm` with a numerical inverse of the matrix
-/

namespace Verif.W
open Verif.Py Verif.BV Verif.P
open Verif.A hiding Mat
open Verif.SG (Mat)

/-- The inverse of the minimal matrix over the real numbers -/
noncomputable def Walsh.realInverse (w : Walsh) : Matrix (Fin w.degree) (Fin w.degree) ℝ := (w.intMatrix.map (fun z : Int => (z : ℝ)))⁻¹

theorem realInverse_apply (w : Walsh) (i j : Fin w.degree) : w.realInverse i j = (w.intMatrix.adjugate i j : ℝ) / (w.intMatrix.det : ℝ) := by
  unfold Walsh.realInverse
  have e : w.intMatrix.map (fun z : Int => (z : ℝ)) = (Int.castRingHom ℝ).mapMatrix w.intMatrix := rfl
  rw [Matrix.inv_def, Matrix.smul_apply, e, ← RingHom.map_adjugate, ← RingHom.map_det, Ring.inverse_eq_inv', smul_eq_mul, div_eq_inv_mul]
  rfl

theorem isIntegerMatrix_iff {n : Nat} (m : Fin n → Fin n → ℝ) : isIntegerMatrix m ↔ ∀ i j, ∃ z : Int, m i j = z := by
  unfold isIntegerMatrix
  refine forall_congr' fun i => forall_congr' fun j => ?_
  constructor
  · intro h
    refine ⟨⌊m i j⌋, ?_⟩
    have h0 : Int.fract (m i j) = 0 := le_antisymm (not_lt.1 h) (Int.fract_nonneg _)
    have := Int.floor_add_fract (m i j)
    rw [h0, add_zero] at this
    exact this.symm
  · rintro ⟨z, hz⟩
    rw [hz, Int.fract_intCast]
    exact lt_irrefl 0

/-- **C164.** The result is right when the numerical inverse is that precise: when the error of each entry is smaller than one divided by the absolute value of the determinant. -/
theorem C164_inverse (a : Walsh) (ha : Constructed a) (m : Fin a.degree → Fin a.degree → ℝ)
    (hm : ∀ i j, |m i j - a.realInverse i j| < 1 / |(a.intMatrix.det : ℝ)|) :
    ∃ v, a.inverseWith (.ok m) = .ok v ∧ Constructed v ∧ (∀ x y, v.get x = .ok y ↔ a.get y = .ok x) ∧
      a.mul v = .ok neutralWalsh ∧ v.mul a = .ok neutralWalsh ∧ ∃ v', a.inverse = .ok v' ∧ v.eq v' = true := by
  obtain ⟨d, A, hA⟩ := ha.valid
  have hd := hA.1.deg
  subst hd
  have hodd := (isUnit_iff_odd hA.1).1 hA.2
  have hdet : a.intMatrix.det ≠ 0 := by omega
  have key : ∃ v e C, a.inverseWith (.ok m) = .ok v ∧ Valid v e C ∧ (∀ x, act a.degree A (act e C x) = x) ∧ (∀ x, act e C (act a.degree A x) = x) := by
    unfold Walsh.inverseWith
    simp only [bind, Except.bind]
    by_cases hint : isIntegerMatrix m
    · rw [if_pos hint]
      rw [isIntegerMatrix_iff] at hint
      have hadj : ∀ i j, a.intMatrix.adjugate i j = a.intMatrix.det * ⌊m i j⌋ := by
        intro i j
        obtain ⟨z, hz⟩ := hint i j
        have h1 := hm i j
        rw [hz, Int.floor_intCast]
        have hr : (a.intMatrix.det : ℝ) ≠ 0 := by exact_mod_cast hdet
        have hp : 0 < |(a.intMatrix.det : ℝ)| := abs_pos.2 hr
        rw [hz, realInverse_apply, lt_div_iff₀ hp, ← abs_mul, sub_mul, div_mul_cancel₀ _ hr] at h1
        have h2 : |z * a.intMatrix.det - a.intMatrix.adjugate i j| < 1 := by exact_mod_cast h1
        rw [Int.abs_lt_one_iff] at h2
        linarith [mul_comm z a.intMatrix.det]
      obtain ⟨v, e, C, h1, h2⟩ := inverse_spec hA
      refine ⟨v, e, C, ?_, h2⟩
      rw [← h1]
      unfold Walsh.inverse
      simp only
      rw [if_neg hdet, if_pos fun i j => ⟨_, hadj i j⟩]
      congr 2
      funext i j
      split
      · rw [hadj, Int.mul_ediv_cancel_left _ hdet]
      · rfl
    · rw [if_neg hint]
      exact inversePerm_spec hA (fun h0 => hint fun i => by have := i.2; omega)
  obtain ⟨v, e, C, h1, h2, h3, h4⟩ := key
  obtain ⟨v', e', C', h1', h2', h3', h4'⟩ := inverse_spec hA
  refine ⟨v, h1, h2.constructed, fun x y => ?_, ?_, ?_, v', h1', ?_⟩
  · rw [h2.get, hA.get]
    constructor
    · intro h; cases h; rw [h3]
    · intro h; cases h; rw [h4]
  · obtain ⟨c, d', C', c1, c2, c3⟩ := mul_spec hA h2
    rw [c1, neutral_of_act c2 (fun x => by rw [c3, h3])]
  · obtain ⟨c, d', C', c1, c2, c3⟩ := mul_spec h2 hA
    rw [c1, neutral_of_act c2 (fun x => by rw [c3, h4])]
  · rw [h2.eq_iff h2']
    funext x
    rw [← h4' (act e C x), h3]

/-- **C164.** When the numerical inverse is not integral, its precision does not matter. -/
theorem C164_not_integral (a : Walsh) (ha : Constructed a) (m : Fin a.degree → Fin a.degree → ℝ) (hm : ∃ i j, ∀ z : Int, m i j ≠ z) :
    ∃ v, a.inverseWith (.ok m) = .ok v ∧ Constructed v ∧ ∀ x y, v.get x = .ok y ↔ a.get y = .ok x := by
  obtain ⟨d, A, hA⟩ := ha.valid
  have hd := hA.1.deg
  subst hd
  have hint : ¬ isIntegerMatrix m := by
    rw [isIntegerMatrix_iff]
    intro h
    obtain ⟨i, j, hij⟩ := hm
    obtain ⟨z, hz⟩ := h i j
    exact hij z hz
  obtain ⟨v, e, C, h1, h2, h3, h4⟩ := inversePerm_spec hA (fun h0 => hint fun i => by have := i.2; omega)
  refine ⟨v, ?_, h2.constructed, fun x y => ?_⟩
  · unfold Walsh.inverseWith
    simp only [bind, Except.bind]
    rw [if_neg hint]
    exact h1
  · rw [h2.get, hA.get]
    constructor
    · intro h; cases h; rw [h3]
    · intro h; cases h; rw [h4]

/-! ## The bound can not be improved -/

/-- zeros in the diagonal, ones elsewhere -/
def coMatrix : Mat := ⟨4, 4, fun i j => if i = j then 0 else 1⟩

/-- the Walsh permutation with the vector `[14, 13, 11, 7]` -/
def coWalsh : Walsh := ⟨false, 4, coMatrix, Vec.ofList [14, 13, 11, 7], Vec.ofList [14, 13, 11, 7]⟩

theorem new_coWalsh : new { matrix := some coMatrix } = .ok coWalsh := by
  have h1 : matrixToVector coMatrix = .ok [14, 13, 11, 7] := by decide +kernel
  have h2 : matrixToVector coMatrix true = .ok [14, 13, 11, 7] := by decide +kernel
  have h3 : shrinkLoop coMatrix 4 = some 4 := by decide +kernel
  have h4 : ∃ x, coWalsh.mapping = .ok x := by
    have : coWalsh.mapping.toOption.isSome = true := by decide +kernel
    cases h : coWalsh.mapping with
    | error e => rw [h] at this; cases this
    | ok x => exact ⟨x, rfl⟩
  obtain ⟨x, hx⟩ := h4
  show newMatrix coMatrix = _
  unfold newMatrix shrinkMatrix
  rw [if_pos (by decide), if_pos (by rfl)]
  simp only [show coMatrix.rows = 4 from rfl, h3, h1, h2]
  have e : (⟨false, 4, ⟨4, 4, coMatrix.get⟩, Vec.ofList [14, 13, 11, 7], Vec.ofList [14, 13, 11, 7]⟩ : Walsh) = coWalsh := rfl
  rw [e, hx]
  rfl

theorem det_coWalsh : coWalsh.intMatrix.det = -3 := by
  decide +kernel

theorem adj_coWalsh (i j : Fin coWalsh.degree) : coWalsh.intMatrix.adjugate i j = if i = j then 2 else -1 := by
  rw [Matrix.adjugate_apply]
  have h : ∀ i j : Fin coWalsh.degree, (coWalsh.intMatrix.updateRow j (Pi.single i 1)).det = if i = j then 2 else -1 := by
    decide +kernel
  exact h i j

/-- **C164.** (The bound can not be improved.)  The matrix with zeros in the diagonal and ones elsewhere, of size 4, has the determinant -3.  If all errors are exactly a third,
then the inverse is wrong: it is the neutral element. -/
theorem C164_bound : ∃ (a : Walsh) (m : Fin a.degree → Fin a.degree → ℝ), Constructed a ∧ a.intMatrix.det = -3 ∧
    (∀ i j, |m i j - a.realInverse i j| = 1 / |(a.intMatrix.det : ℝ)|) ∧ a.inverseWith (.ok m) = .ok neutralWalsh ∧ a.mul neutralWalsh ≠ .ok neutralWalsh := by
  have hc : Constructed coWalsh := ⟨_, rfl, new_coWalsh⟩
  have hadj := adj_coWalsh
  refine ⟨coWalsh, fun i j => if i = j then -1 else 0, hc, det_coWalsh, ?_, ?_, ?_⟩
  · intro i j
    rw [realInverse_apply, det_coWalsh, hadj i j]
    by_cases h : i = j
    · simp only [if_pos h]; norm_num [abs_of_neg]
    · simp only [if_neg h]; norm_num [abs_of_neg]
  · unfold Walsh.inverseWith
    simp only [bind, Except.bind]
    rw [if_pos]
    · have e : (fun i j : Nat => if h : i < coWalsh.degree ∧ j < coWalsh.degree then
          ⌊(fun i j : Fin coWalsh.degree => if i = j then (-1 : ℝ) else 0) ⟨i, h.1⟩ ⟨j, h.2⟩⌋ % 2 else 0) =
          fun i j => if i < coWalsh.degree ∧ j < coWalsh.degree then if i = j then 1 else 0 else 0 := by
        funext i j
        by_cases h : i < coWalsh.degree ∧ j < coWalsh.degree
        · rw [dif_pos h, if_pos h]
          by_cases hij : i = j
          · rw [if_pos hij]
            simp only [hij, if_true]
            rw [show (-1 : ℝ) = ((-1 : Int) : ℝ) by norm_num, Int.floor_intCast]
            rfl
          · simp only [Fin.mk.injEq]
            rw [if_neg hij, if_neg hij, Int.floor_zero]
            rfl
        · rw [dif_neg h, if_neg h]
      rw [e]
      have h3 : shrinkLoop ⟨coWalsh.degree, coWalsh.degree, fun i j => if i < coWalsh.degree ∧ j < coWalsh.degree then if i = j then 1 else 0 else 0⟩
          coWalsh.degree = none := by decide +kernel
      unfold newMatrix shrinkMatrix
      simp only
      rw [if_pos (by decide), if_pos trivial, h3]
    · rw [isIntegerMatrix_iff]
      intro i j
      by_cases h : i = j
      · exact ⟨-1, by rw [if_pos h]; norm_num⟩
      · exact ⟨0, by rw [if_neg h]; norm_num⟩
  · intro h
    obtain ⟨c, c1, _, c3⟩ := C35_mul coWalsh neutralWalsh hc ⟨{}, rfl, rfl⟩
    rw [h] at c1
    cases c1
    have h1 := c3 1
    rw [show neutralWalsh.get 1 = .ok 1 by decide +kernel] at h1
    have h2 : coWalsh.get 1 = .ok 14 := by decide +kernel
    have h3 : (Except.ok 1 : Except Err Nat) = coWalsh.get 1 := h1
    rw [h2] at h3
    cases h3

/-- a matrix with determinant -3, and a numerical inverse that is neither exact nor integral -/
example : Constructed coWalsh ∧ coWalsh.intMatrix.det = -3 ∧
    ∀ i j : Fin coWalsh.degree, |(if i = j then -0.666 else 0.333 : ℝ) - coWalsh.realInverse i j| < 1 / |(coWalsh.intMatrix.det : ℝ)| := by
  refine ⟨⟨_, rfl, new_coWalsh⟩, det_coWalsh, fun i j => ?_⟩
  have hadj := adj_coWalsh
  rw [realInverse_apply, det_coWalsh, hadj i j]
  by_cases h : i = j
  · rw [if_pos h, if_pos h, abs_lt]; norm_num
  · rw [if_neg h, if_neg h, abs_lt]; norm_num

end Verif.W
