import Verif.Walsh.Model
import Mathlib.LinearAlgebra.Matrix.NonsingularInverse
import Mathlib.Data.ZMod.Basic
import Mathlib.Algebra.Field.ZMod

/-! # Binary matrices and their action on natural numbers -/

namespace Verif.W
open Verif.Py Verif.BV Verif.P
open Verif.A hiding Mat
open Verif.SG (Mat)

/-- a bit as an element of the field with two elements -/
def zb (b : Bool) : ZMod 2 := if b then 1 else 0

@[simp] theorem zb_false : zb false = 0 := rfl
@[simp] theorem zb_true : zb true = 1 := rfl
theorem zb_xor (a b : Bool) : zb (a ^^ b) = zb a + zb b := by cases a <;> cases b <;> decide
theorem zb_and (a b : Bool) : zb (a && b) = zb a * zb b := by cases a <;> cases b <;> decide
theorem zb_inj {a b : Bool} : zb a = zb b ↔ a = b := by revert a b; decide
theorem zb_surj (z : ZMod 2) : ∃ b, zb b = z := by revert z; decide

theorem zb_bsum (n : Nat) (f : Nat → Bool) : zb (bsum n f) = ∑ k : Fin n, zb (f k) := by
  induction n with
  | zero => simp [bsum]
  | succ n ih => rw [bsum, zb_xor, ih, Fin.sum_univ_castSucc]; simp

/-- the digits of a number as a vector over the field with two elements -/
def bitv (d x : Nat) : Fin d → ZMod 2 := fun k => zb (x.testBit k)

/-- the upper left part of a binary matrix -/
def MB (d : Nat) (B : Nat → Nat → Bool) : Matrix (Fin d) (Fin d) (ZMod 2) := Matrix.of fun i j => zb (B i j)

/-- the action of a binary matrix on the `d` lowest digits of a number -/
def act (d : Nat) (B : Nat → Nat → Bool) (x : Nat) : Nat :=
  valB ((List.range d).map fun j => bsum d (fun k => B j k && x.testBit k)) + x / 2 ^ d * 2 ^ d

theorem valB_range_lt (d : Nat) (f : Nat → Bool) : valB ((List.range d).map f) < 2 ^ d := by
  have := valB_lt ((List.range d).map f)
  simpa using this

theorem testBit_valB_range (d : Nat) (f : Nat → Bool) (j : Nat) : (valB ((List.range d).map f)).testBit j = (decide (j < d) && f j) := by
  rw [testBit_valB, List.getD_eq_getElem?_getD, List.getElem?_map]
  by_cases hj : j < d
  · rw [List.getElem?_range hj]; simp [hj]
  · rw [List.getElem?_eq_none (by simpa using hj)]; simp [hj]

theorem testBit_act (d : Nat) (B : Nat → Nat → Bool) (x j : Nat) :
    (act d B x).testBit j = if j < d then bsum d (fun k => B j k && x.testBit k) else x.testBit j := by
  unfold act
  have hlt := valB_range_lt d fun j => bsum d (fun k => B j k && x.testBit k)
  rw [Nat.add_comm, Nat.mul_comm, Nat.testBit_two_pow_mul_add _ hlt]
  by_cases hj : j < d
  · rw [if_pos hj, if_pos hj, testBit_valB_range]; simp [hj]
  · rw [if_neg hj, if_neg hj, Nat.testBit_div_two_pow]
    congr 1; omega

theorem bitv_act (d : Nat) (B : Nat → Nat → Bool) (x : Nat) : bitv d (act d B x) = (MB d B).mulVec (bitv d x) := by
  funext j
  unfold bitv
  rw [testBit_act, if_pos j.2, zb_bsum]
  simp only [Matrix.mulVec, dotProduct, MB, Matrix.of_apply, zb_and]

theorem bitv_inj {d x y : Nat} (hx : x < 2 ^ d) (hy : y < 2 ^ d) : bitv d x = bitv d y ↔ x = y := by
  constructor
  · intro h
    apply Nat.eq_of_testBit_eq
    intro i
    by_cases hi : i < d
    · exact zb_inj.1 (congrFun h ⟨i, hi⟩)
    · rw [Nat.testBit_lt_two_pow (lt_of_lt_of_le hx (Nat.pow_le_pow_right (by omega) (by omega))),
        Nat.testBit_lt_two_pow (lt_of_lt_of_le hy (Nat.pow_le_pow_right (by omega) (by omega)))]
  · rintro rfl; rfl

theorem bitv_surj {d : Nat} (v : Fin d → ZMod 2) : ∃ x < 2 ^ d, bitv d x = v := by
  choose f hf using fun k => zb_surj (v k)
  refine ⟨valB ((List.range d).map fun k => if h : k < d then f ⟨k, h⟩ else false), valB_range_lt _ _, ?_⟩
  funext k
  unfold bitv
  rw [testBit_valB_range]
  simp [hf]

theorem act_lt {d n x : Nat} (B : Nat → Nat → Bool) (hd : d ≤ n) (hx : x < 2 ^ n) : act d B x < 2 ^ n := by
  apply Nat.lt_pow_two_of_testBit
  intro i hi
  rw [testBit_act, if_neg (by omega)]
  exact Nat.testBit_lt_two_pow (lt_of_lt_of_le hx (Nat.pow_le_pow_right (by omega) hi))

/-- `B` is the identity outside of the upper left part of size `d` -/
def Outside (d : Nat) (B : Nat → Nat → Bool) : Prop := ∀ i j, d ≤ i ∨ d ≤ j → B i j = decide (i = j)

theorem act_mono {d n : Nat} {B : Nat → Nat → Bool} (ho : Outside d B) (hn : d ≤ n) (x : Nat) : act n B x = act d B x := by
  apply Nat.eq_of_testBit_eq
  intro j
  rw [testBit_act, testBit_act]
  by_cases hj : j < d
  · rw [if_pos (by omega), if_pos hj]
    apply bsum_mono hn
    intro k hk _
    rw [ho j k (Or.inr hk)]
    have : j ≠ k := by omega
    simp [this]
  · rw [if_neg hj]
    by_cases hjn : j < n
    · rw [if_pos hjn, bsum_single (k := j) hjn]
      · rw [ho j j (Or.inl (by omega))]; simp
      · intro i _ hi
        rw [ho j i (Or.inl (by omega))]
        have : j ≠ i := by omega
        simp [this]
    · rw [if_neg hjn]

/-- a number of all digits above `d` is not changed, and the action is additive -/
theorem act_xor (d : Nat) (B : Nat → Nat → Bool) (x y : Nat) : act d B (x ^^^ y) = act d B x ^^^ act d B y := by
  apply Nat.eq_of_testBit_eq
  intro j
  rw [Nat.testBit_xor, testBit_act, testBit_act, testBit_act]
  by_cases hj : j < d
  · simp only [if_pos hj]
    rw [← bsum_xor]
    apply bsum_congr
    intro k _
    rw [Nat.testBit_xor]
    cases B j k <;> simp
  · simp only [if_neg hj, Nat.testBit_xor]

theorem act_two_pow {d k : Nat} (B : Nat → Nat → Bool) (hk : k < d) :
    act d B (2 ^ k) = valB ((List.range d).map fun j => B j k) := by
  apply Nat.eq_of_testBit_eq
  intro j
  rw [testBit_act, testBit_valB_range]
  by_cases hj : j < d
  · rw [if_pos hj, bsum_single hk]
    · simp [Nat.testBit_two_pow_self, hj]
    · intro i _ hi
      rw [Nat.testBit_two_pow_of_ne (by omega)]
      simp
  · rw [if_neg hj, Nat.testBit_two_pow_of_ne (by omega)]
    simp [hj]

/-- two matrices that act alike are equal -/
theorem act_ext {d : Nat} {A B : Nat → Nat → Bool} (h : ∀ k < d, act d A (2 ^ k) = act d B (2 ^ k)) :
    ∀ i < d, ∀ j < d, A i j = B i j := by
  intro i hi j hj
  have := h j hj
  rw [act_two_pow A hj, act_two_pow B hj] at this
  have := congrArg (fun n => Nat.testBit n i) this
  simp only [testBit_valB_range] at this
  simpa [hi] using this

/-- matrix product modulo 2 -/
def mulB (n : Nat) (A B : Nat → Nat → Bool) (i j : Nat) : Bool := bsum n fun k => A i k && B k j

theorem MB_mulB (n : Nat) (A B : Nat → Nat → Bool) : MB n (mulB n A B) = MB n A * MB n B := by
  ext i j
  simp only [MB, Matrix.of_apply, mulB, Matrix.mul_apply, zb_bsum, zb_and]

theorem act_mulB (n : Nat) (A B : Nat → Nat → Bool) (x : Nat) : act n (mulB n A B) x = act n A (act n B x) := by
  apply Nat.eq_of_testBit_eq
  intro j
  by_cases hj : j < n
  · have : bitv n (act n (mulB n A B) x) ⟨j, hj⟩ = bitv n (act n A (act n B x)) ⟨j, hj⟩ := by
      rw [bitv_act, bitv_act, bitv_act, MB_mulB, Matrix.mulVec_mulVec]
    exact zb_inj.1 this
  · rw [testBit_act, testBit_act, testBit_act, if_neg hj, if_neg hj, if_neg hj]

theorem isUnit_iff_inj (d : Nat) (B : Nat → Nat → Bool) :
    IsUnit (MB d B) ↔ ∀ x < 2 ^ d, ∀ y < 2 ^ d, act d B x = act d B y → x = y := by
  rw [← Matrix.mulVec_injective_iff_isUnit]
  constructor
  · intro h x hx y hy hxy
    rw [← bitv_inj hx hy]
    apply h
    show (MB d B).mulVec _ = (MB d B).mulVec _
    rw [← bitv_act, ← bitv_act, hxy]
  · intro h v w hvw
    obtain ⟨x, hx, rfl⟩ := bitv_surj v
    obtain ⟨y, hy, rfl⟩ := bitv_surj w
    have hvw : (MB d B).mulVec _ = (MB d B).mulVec _ := hvw
    rw [← bitv_act, ← bitv_act, bitv_inj (act_lt B le_rfl hx) (act_lt B le_rfl hy)] at hvw
    rw [h x hx y hy hvw]

theorem act_inj {d : Nat} {B : Nat → Nat → Bool} (h : IsUnit (MB d B)) : Function.Injective (act d B) := by
  intro x y hxy
  rw [isUnit_iff_inj] at h
  have hlow : x % 2 ^ d = y % 2 ^ d := by
    apply h _ (Nat.mod_lt _ (Nat.two_pow_pos d)) _ (Nat.mod_lt _ (Nat.two_pow_pos d))
    apply Nat.eq_of_testBit_eq
    intro j
    have hj := congrArg (fun n => Nat.testBit n j) hxy
    simp only [testBit_act] at hj ⊢
    by_cases hjd : j < d
    · rw [if_pos hjd] at hj ⊢
      rw [if_pos hjd] at hj ⊢
      have e : ∀ z, bsum d (fun k => B j k && (z % 2 ^ d).testBit k) = bsum d (fun k => B j k && z.testBit k) := by
        intro z
        apply bsum_congr
        intro k hk
        rw [Nat.testBit_mod_two_pow]; simp [hk]
      rw [e, e]; exact hj
    · rw [if_neg hjd, if_neg hjd, Nat.testBit_mod_two_pow, Nat.testBit_mod_two_pow]; simp [hjd]
  apply Nat.eq_of_testBit_eq
  intro j
  by_cases hjd : j < d
  · have := congrArg (fun n => Nat.testBit n j) hlow
    simpa [Nat.testBit_mod_two_pow, hjd] using this
  · have hj := congrArg (fun n => Nat.testBit n j) hxy
    simpa only [testBit_act, if_neg hjd] using hj

end Verif.W
