import Verif.Boolf.Props99
import Verif.Boolf.Props100
import Mathlib.Algebra.BigOperators.Ring.Finset

/-! # C180: short products in the algebraic normal form make the numbers of true places divisible by powers of two -/

namespace Verif.BF
open Verif.Py Verif.BV Verif.P Verif.W
open Verif.A hiding Mat

/-- the sign of a truth value -/
def bsgn (b : Bool) : Int := if b then -1 else 1

theorem bsgn_xor (a b : Bool) : bsgn (a ^^ b) = bsgn a * bsgn b := by cases a <;> cases b <;> rfl

theorem bsgn_subXor (n : Nat) (v : Nat → Bool) (j : Nat) :
    bsgn (subXor n v j) = ∏ k ∈ (Finset.range (2 ^ n)).filter (fun k => v k = true), (1 + if sub k j = true then -2 else 0) := by
  unfold subXor
  generalize 2 ^ n = m
  rw [Finset.prod_filter]
  induction m with
  | zero => rfl
  | succ m ih =>
    rw [List.range_succ, List.map_append, xorSum_append, bsgn_xor, ih, Finset.prod_range_succ]
    congr 1
    cases h1 : v m <;> cases h2 : sub m j <;> simp [xorSum, bsgn, h1, h2]

theorem sum_bsgn (n : Nat) (P : Nat → Bool) : ∑ j ∈ Finset.range (2 ^ n), bsgn (P j) = 2 ^ n - 2 * countF n P := by
  rw [countF_card, Finset.card_filter]
  push_cast
  rw [Finset.mul_sum, show (2 : Int) ^ n = ∑ _i ∈ Finset.range (2 ^ n), 1 by simp, ← Finset.sum_sub_distrib]
  refine Finset.sum_congr rfl fun i _ => ?_
  cases P i <;> simp [bsgn]

theorem ones_or (n a b : Nat) : ones n (a ||| b) ≤ ones n a + ones n b := by
  unfold ones
  induction n with
  | zero => simp
  | succ n ih =>
    rw [List.range_succ, List.countP_append, List.countP_append, List.countP_append]
    have : List.countP (a ||| b).testBit [n] ≤ List.countP a.testBit [n] + List.countP b.testBit [n] := by
      simp only [List.countP_singleton, Nat.testBit_or]
      cases a.testBit n <;> cases b.testBit n <;> simp
    omega

/-- The places that contain all numbers of a set contain their union. -/
theorem union_of_set (n d : Nat) (S : Finset Nat) (hS : ∀ k ∈ S, k < 2 ^ n ∧ ones n k ≤ d) :
    ∃ m < 2 ^ n, ones n m ≤ d * S.card ∧ ∀ j, (∀ k ∈ S, sub k j = true) ↔ sub m j = true := by
  classical
  induction S using Finset.induction_on with
  | empty => exact ⟨0, Nat.two_pow_pos n, by simp [ones], fun j => by simp [sub]⟩
  | insert a S ha ih =>
    obtain ⟨m, m1, m2, m3⟩ := ih fun k hk => hS k (Finset.mem_insert_of_mem hk)
    obtain ⟨a1, a2⟩ := hS a (Finset.mem_insert_self a S)
    refine ⟨a ||| m, Nat.or_lt_two_pow a1 m1, ?_, fun j => ?_⟩
    · rw [Finset.card_insert_of_notMem ha, Nat.mul_add, Nat.mul_one]
      have := ones_or n a m
      omega
    · rw [Finset.forall_mem_insert, m3, sub_iff, sub_iff, sub_iff]
      constructor
      · rintro ⟨h1, h2⟩ k hk
        rw [Nat.testBit_or, Bool.or_eq_true] at hk
        exact hk.elim (h1 k) (h2 k)
      · intro h
        exact ⟨fun k hk => h k (by rw [Nat.testBit_or, hk, Bool.true_or]), fun k hk => h k (by rw [Nat.testBit_or, hk, Bool.or_true])⟩

/-- The theorem of McEliece on the weights of Reed-Muller codes. -/
theorem mceliece (n d : Nat) (hd0 : 0 < d) (v : Nat → Bool) (hd : ∀ k < 2 ^ n, v k = true → ones n k ≤ d) :
    2 ^ ((n + d - 1) / d - 1) ∣ countF n (subXor n v) := by
  classical
  have hq : (n + d - 1) / d ≤ n := by
    rw [Nat.div_le_iff_le_mul_add_pred hd0]
    have : n ≤ d * n := Nat.le_mul_of_pos_left n hd0
    omega
  have key : (2 : Int) ^ ((n + d - 1) / d) ∣ ∑ j ∈ Finset.range (2 ^ n), bsgn (subXor n v j) := by
    have e : ∑ j ∈ Finset.range (2 ^ n), bsgn (subXor n v j) =
        ∑ S ∈ ((Finset.range (2 ^ n)).filter (fun k => v k = true)).powerset,
          ∑ j ∈ Finset.range (2 ^ n), ∏ k ∈ S, (if sub k j = true then (-2 : Int) else 0) := by
      rw [Finset.sum_comm]
      refine Finset.sum_congr rfl fun j _ => ?_
      rw [bsgn_subXor, Finset.prod_one_add]
    rw [e]
    refine Finset.dvd_sum fun S hS => ?_
    rw [Finset.mem_powerset] at hS
    obtain ⟨m, m1, m2, m3⟩ := union_of_set n d S fun k hk => by
      have := Finset.mem_filter.1 (hS hk)
      exact ⟨Finset.mem_range.1 this.1, hd k (Finset.mem_range.1 this.1) this.2⟩
    have e2 : ∑ j ∈ Finset.range (2 ^ n), ∏ k ∈ S, (if sub k j = true then (-2 : Int) else 0) = (-2) ^ S.card * 2 ^ (n - ones n m) := by
      rw [Finset.sum_congr rfl (g := fun j => if sub m j = true then (-2 : Int) ^ S.card else 0), ← Finset.sum_filter, Finset.sum_const,
        ← countF_card, countF_sub m1, nsmul_eq_mul, mul_comm]
      · push_cast
        rfl
      · intro j _
        by_cases h : sub m j = true
        · rw [if_pos h, Finset.prod_congr rfl (g := fun _ => (-2 : Int)) fun k hk => if_pos ((m3 j).2 h k hk), Finset.prod_const]
        · rw [if_neg h]
          have : ∃ k ∈ S, sub k j ≠ true := by
            by_contra hc
            push Not at hc
            exact h ((m3 j).1 hc)
          obtain ⟨k, hk, hk'⟩ := this
          exact Finset.prod_eq_zero hk (if_neg hk')
    rw [e2, neg_pow, mul_assoc, ← pow_add]
    refine Dvd.dvd.mul_left (pow_dvd_pow 2 ?_) _
    have o1 := ones_le n m
    rw [Nat.div_le_iff_le_mul_add_pred hd0, Nat.mul_add]
    have : n - ones n m ≤ d * (n - ones n m) := Nat.le_mul_of_pos_left _ hd0
    omega
  rw [sum_bsgn] at key
  by_cases h0 : (n + d - 1) / d = 0
  · rw [h0]; exact one_dvd _
  · have h1 : (2 : Int) ^ ((n + d - 1) / d) ∣ 2 * (countF n (subXor n v) : Int) := by
      have := (pow_dvd_pow (2 : Int) hq).sub key
      rwa [sub_sub_cancel] at this
    obtain ⟨q, hq'⟩ := Nat.exists_eq_succ_of_ne_zero h0
    rw [hq', Nat.succ_eq_add_one, Nat.add_sub_cancel]
    rw [hq', Nat.succ_eq_add_one, pow_succ'] at h1
    have := Int.dvd_of_mul_dvd_mul_left (by norm_num) h1
    exact_mod_cast this

/-- coefficients of a linear function -/
def linCoef (c m i : Nat) : Bool := W.bsum c fun t => m.testBit t && decide (i = 2 ^ t)

theorem sub_pow (t j : Nat) : sub (2 ^ t) j = j.testBit t := by
  rw [Bool.eq_iff_iff, sub_iff]
  constructor
  · intro h
    exact h t (by rw [Nat.testBit_two_pow_self])
  · intro h k hk
    rw [Nat.testBit_two_pow, decide_eq_true_eq] at hk
    rw [← hk]; exact h

theorem subXor_linCoef {n c : Nat} (hc : c ≤ n) (m j : Nat) : subXor n (linCoef c m) j = linF c m j := by
  unfold linF
  induction c with
  | zero => exact subXor_false n j
  | succ c ih =>
    have e : subXor n (linCoef (c + 1) m) j = subXor n (fun i => linCoef c m i ^^ (m.testBit c && decide (i = 2 ^ c))) j := rfl
    rw [e, subXor_xor, ih (by omega), subXor_and_left, subXor_single (Nat.pow_lt_pow_right (by omega) (by omega)), sub_pow]
    rfl

theorem linCoef_true {c m i : Nat} (h : linCoef c m i = true) : ∃ t < c, i = 2 ^ t := by
  unfold linCoef at h
  induction c with
  | zero => cases h
  | succ c ih =>
    rw [W.bsum] at h
    by_cases hi : i = 2 ^ c
    · exact ⟨c, by omega, hi⟩
    · rw [decide_eq_false hi, Bool.and_false, Bool.xor_false] at h
      obtain ⟨t, h1, h2⟩ := ih h
      exact ⟨t, by omega, h2⟩

theorem ones_pow (n t : Nat) : ones n (2 ^ t) ≤ 1 := by
  unfold ones
  have : (List.range n).countP (2 ^ t).testBit = (List.range n).count t := by
    rw [List.count]
    refine List.countP_congr fun k _ => ?_
    rw [Nat.testBit_two_pow, decide_eq_true_eq, beq_iff_eq]
    exact eq_comm
  rw [this]
  exact List.nodup_iff_count_le_one.1 List.nodup_range t

/-- **C180.** If the algebraic normal form has no products of more than `d` atoms, then the number of true places and all distances to
linear functions are multiples of 2^(⌈n/d⌉ - 1). -/
theorem C180_distances (f : Boolf) (hf : Obj f) (n d : Nat) (hn : f.adicity ≤ n) (hd0 : 0 < d) (z : Nat) (hz : f.zhe = .ok z)
    (hd : ∀ k, z.testBit k = true → ones n k ≤ d) :
    2 ^ ((n + d - 1) / d - 1) ∣ truePlaces f n ∧
    ∃ l, f.walshDistances (.arity n) = .ok l ∧ l.length = 2 ^ n ∧ ∀ x ∈ l, 2 ^ ((n + d - 1) / d - 1) ∣ x := by
  obtain ⟨w, w1, w2, w3⟩ := zhe_eval hf hn
  rw [hz] at w1
  cases w1
  have hs := hf.good.toSound
  constructor
  · rw [truePlaces_eq hs, countF_congr w3]
    exact mceliece n d hd0 _ fun k _ h => hd k h
  · refine ⟨_, distances_eq hs hn, by simp, ?_⟩
    intro x hx
    obtain ⟨m, _, rfl⟩ := List.mem_map.1 hx
    rw [countF_congr (Q := subXor n fun k => z.testBit k ^^ linCoef n m k)]
    · refine mceliece n d hd0 _ fun k _ h => ?_
      cases h1 : z.testBit k
      · rw [h1, Bool.false_xor] at h
        obtain ⟨t, _, rfl⟩ := linCoef_true h
        have := ones_pow n t
        omega
      · exact hd k h1
    · intro i hi
      rw [subXor_xor, subXor_linCoef (Nat.le_refl n), w3 i hi]

/-- **C180.** The same power of two divides all entries of the Walsh spectrum. -/
theorem C180_spectrum (f : Boolf) (hf : Obj f) (n d : Nat) (hn : f.adicity ≤ n) (hd0 : 0 < d) (z : Nat) (hz : f.zhe = .ok z)
    (hd : ∀ k, z.testBit k = true → ones n k ≤ d) :
    ∃ w, f.walshSpectrum (.arity n) = .ok w ∧ w.length = 2 ^ n ∧ ∀ y ∈ w, (2 : Int) ^ ((n + d - 1) / d - 1) ∣ y := by
  obtain ⟨l, w, l1, w1, h⟩ := C80_distances_spectrum f hf n hn
  obtain ⟨_, l', l1', l2, l3⟩ := C180_distances f hf n d hn hd0 z hz hd
  rw [l1] at l1'
  cases l1'
  obtain ⟨w', w1', w2, _⟩ := (C71_spectrum f hf).1 n hn
  rw [w1] at w1'
  cases w1'
  refine ⟨w, w1, w2, fun y hy => ?_⟩
  obtain ⟨k, hk, e⟩ := List.getElem_of_mem hy
  obtain ⟨x, y', h1, h2, h3⟩ := h k (by omega)
  rw [List.getElem?_eq_getElem hk, e] at h2
  cases h2
  have hx : (2 : Int) ^ ((n + d - 1) / d - 1) ∣ x := by exact_mod_cast l3 x (List.mem_of_getElem? h1)
  have hq : (n + d - 1) / d ≤ n := by
    rw [Nat.div_le_iff_le_mul_add_pred hd0]
    have : n ≤ d * n := Nat.le_mul_of_pos_left n hd0
    omega
  have hy' : y = x - if k = 0 then 0 else 2 ^ (n - 1) := by rw [h3]; ring
  rw [hy']
  refine hx.sub ?_
  split
  · exact dvd_zero _
  · exact pow_dvd_pow 2 (by omega)

/-- A product of two atoms plus another one (d = 2, n = 4): everything is even. -/
example : (do
    let f ← new { zhe := some (2 ^ 3 + 2 ^ 12) }
    return (f.adicity, ← f.zhe, ← f.walshDistances (.arity 4), ← f.walshSpectrum (.arity 4))) =
    .ok (4, 4104, [6, 6, 6, 10, 6, 6, 6, 10, 6, 6, 6, 10, 10, 10, 10, 6], [6, -2, -2, 2, -2, -2, -2, 2, -2, -2, -2, 2, 2, 2, 2, -2]) := by
  decide +kernel
example : [3, 12].map (ones 4) = [2, 2] ∧ 2 ^ ((4 + 2 - 1) / 2 - 1) = 2 := by decide

end Verif.BF
