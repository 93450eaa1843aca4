import Verif.Boolf.Props5
import Mathlib.Algebra.BigOperators.Group.Finset.Basic
import Mathlib.Algebra.BigOperators.Ring.Finset
import Mathlib.Algebra.BigOperators.Intervals
import Mathlib.Tactic.Linarith

/-! # The Walsh-Hadamard transform: entries as signed sums, orthogonality -/

namespace Verif.BF
open Verif.Py Verif.BV Verif.P Verif.W
open Verif.A hiding Mat
open Finset

/-- the sign of the entry `i`, `k` of the Walsh matrix of arity `e` -/
def chi (e i k : Nat) : Int := ∏ t ∈ range e, if i.testBit t && k.testBit t then -1 else 1

theorem chi_comm (e i k : Nat) : chi e i k = chi e k i := by
  unfold chi
  exact prod_congr rfl fun t _ => by rw [Bool.and_comm]

theorem chi_succ (e i k : Nat) : chi (e + 1) i k = chi e i k * if i.testBit e && k.testBit e then -1 else 1 := by
  unfold chi
  rw [prod_range_succ]

theorem chi_congr {e i i' k k' : Nat} (h : ∀ t < e, (i.testBit t && k.testBit t) = (i'.testBit t && k'.testBit t)) : chi e i k = chi e i' k' := by
  unfold chi
  exact prod_congr rfl fun t ht => by rw [h t (mem_range.1 ht)]

theorem chi_mul (e i j k : Nat) : chi e i k * chi e j k = chi e (i ^^^ j) k := by
  unfold chi
  rw [← prod_mul_distrib]
  refine prod_congr rfl fun t _ => ?_
  rw [Nat.testBit_xor]
  cases i.testBit t <;> cases j.testBit t <;> cases k.testBit t <;> rfl

theorem chi_zero (e k : Nat) : chi e 0 k = 1 := by
  unfold chi
  exact prod_eq_one fun t _ => by simp

/-- entry `i` of the list -/
def ent (a : List Int) (i : Nat) : Int := a.getD i 0

theorem fwhtStage_length (a : List Int) (s : Nat) : (fwhtStage a s).length = a.length := by simp [fwhtStage]

theorem ent_fwhtStage {a : List Int} {s i : Nat} (hi : i < a.length) :
    ent (fwhtStage a s) i = if i.testBit s then ent a (i - 2 ^ s) - ent a i else ent a i + ent a (i + 2 ^ s) := by
  unfold ent fwhtStage
  conv_lhs => rw [List.getD_eq_getElem?_getD, List.getElem?_map, List.getElem?_range hi]
  rfl

theorem stages_length (a : List Int) (s : Nat) : ((List.range s).foldl fwhtStage a).length = a.length := by
  induction s with
  | zero => rfl
  | succ s ih => rw [List.range_succ, List.foldl_append, List.foldl_cons, List.foldl_nil, fwhtStage_length, ih]

theorem mod_succ_eq (i s : Nat) : i % 2 ^ (s + 1) = i % 2 ^ s + 2 ^ s * (i.testBit s).toNat := by
  rw [pow_succ, Nat.mod_mul, Nat.testBit_eq_decide_div_mod_eq]
  rcases Nat.mod_two_eq_zero_or_one (i / 2 ^ s) with h | h <;> rw [h] <;> rfl

theorem mod_succ_of_testBit {i s : Nat} (h : i.testBit s = true) : i % 2 ^ (s + 1) = 2 ^ s + i % 2 ^ s := by
  rw [mod_succ_eq, h]; simp; omega

theorem mod_succ_of_not_testBit {i s : Nat} (h : i.testBit s = false) : i % 2 ^ (s + 1) = i % 2 ^ s := by
  rw [mod_succ_eq, h]; simp

theorem stages_spec (a : List Int) {e : Nat} (ha : a.length = 2 ^ e) :
    ∀ s, s ≤ e → ∀ i < 2 ^ e, ent ((List.range s).foldl fwhtStage a) i = ∑ j ∈ range (2 ^ s), chi s j i * ent a (i - i % 2 ^ s + j) := by
  intro s
  induction s with
  | zero =>
    intro _ i _
    simp [chi, Nat.mod_one]
  | succ s ih =>
    intro hs i hi
    rw [List.range_succ, List.foldl_append, List.foldl_cons, List.foldl_nil, ent_fwhtStage (by rw [stages_length, ha]; exact hi)]
    have hp2 : 2 ^ (s + 1) = 2 ^ s + 2 ^ s := by rw [pow_succ, mul_two]
    rw [hp2, sum_range_add, ← hp2]
    have hchi : ∀ j < 2 ^ s, ∀ i', (∀ t < s, i'.testBit t = i.testBit t) → chi s j i' = chi (s + 1) j i := by
      intro j hj i' hi'
      rw [chi_succ, Nat.testBit_lt_two_pow hj]
      simp only [Bool.false_and, Bool.false_eq_true, if_false, mul_one]
      exact chi_congr fun t ht => by rw [hi' t ht]
    have hchi2 : ∀ j < 2 ^ s, chi (s + 1) (2 ^ s + j) i = chi (s + 1) j i * if i.testBit s then -1 else 1 := by
      intro j hj
      rw [chi_succ, chi_succ, Nat.testBit_lt_two_pow hj, Nat.testBit_two_pow_add_eq, Nat.testBit_lt_two_pow hj]
      simp only [Bool.not_false, Bool.true_and, Bool.false_and, Bool.false_eq_true, if_false, mul_one]
      congr 1
      refine chi_congr fun t ht => ?_
      rw [Nat.testBit_two_pow_add_gt ht]
    have hpow : 2 ^ (s + 1) ≤ 2 ^ e := Nat.pow_le_pow_right (by omega) hs
    by_cases hb : i.testBit s = true
    · rw [if_pos hb]
      have hm := mod_succ_of_testBit hb
      have hge : 2 ^ s ≤ i := by
        have := Nat.mod_le i (2 ^ (s + 1)); omega
      have hmod : (i - 2 ^ s) % 2 ^ s = i % 2 ^ s := by
        conv_rhs => rw [show i = i - 2 ^ s + 2 ^ s by omega, Nat.add_mod_right]
      have hle : i % 2 ^ (s + 1) ≤ i := Nat.mod_le _ _
      rw [ih (by omega) _ (by omega), ih (by omega) _ hi, sub_eq_add_neg, ← sum_neg_distrib]
      congr 1
      · refine sum_congr rfl fun j hj => ?_
        rw [mem_range] at hj
        rw [hchi j hj]
        · rw [hmod, hm]
          congr 2
          omega
        · intro t ht
          conv_rhs => rw [show i = 2 ^ s + (i - 2 ^ s) by omega]
          rw [Nat.testBit_two_pow_add_gt ht]
      · refine sum_congr rfl fun j hj => ?_
        rw [mem_range] at hj
        rw [hchi2 j hj, hchi j hj i (fun _ _ => rfl), if_pos hb, hm]
        have : i - i % 2 ^ s + j = i - (2 ^ s + i % 2 ^ s) + (2 ^ s + j) := by omega
        rw [this]; ring
    · rw [if_neg hb]
      rw [Bool.not_eq_true] at hb
      have hm := mod_succ_of_not_testBit hb
      have hlt : i + 2 ^ s < 2 ^ e := by
        have h1 : i / 2 ^ (s + 1) < 2 ^ (e - (s + 1)) := by
          rw [Nat.div_lt_iff_lt_mul (Nat.two_pow_pos _), ← pow_add, Nat.sub_add_cancel hs]; exact hi
        have h2 := Nat.div_add_mod i (2 ^ (s + 1))
        have h3 : i % 2 ^ (s + 1) < 2 ^ s := by rw [hm]; exact Nat.mod_lt _ (Nat.two_pow_pos _)
        have h4 : 2 ^ (s + 1) * (i / 2 ^ (s + 1) + 1) ≤ 2 ^ (s + 1) * 2 ^ (e - (s + 1)) := Nat.mul_le_mul_left _ h1
        rw [← pow_add, Nat.add_sub_cancel' hs, mul_add, mul_one, pow_succ] at h4
        rw [pow_succ] at h2 h3
        omega
      have hmod : (i + 2 ^ s) % 2 ^ s = i % 2 ^ s := Nat.add_mod_right _ _
      rw [ih (by omega) _ hi, ih (by omega) _ hlt]
      congr 1
      · refine sum_congr rfl fun j hj => ?_
        rw [mem_range] at hj
        rw [hchi j hj i (fun _ _ => rfl), hm]
      · refine sum_congr rfl fun j hj => ?_
        rw [mem_range] at hj
        rw [hchi2 j hj, hchi j hj (i + 2 ^ s) (fun t ht => by rw [add_comm, Nat.testBit_two_pow_add_gt ht]), hmod, hm]
        have hle := Nat.mod_le i (2 ^ s)
        have : i + 2 ^ s - i % 2 ^ s + j = i - i % 2 ^ s + (2 ^ s + j) := by omega
        rw [this, hb]; simp

theorem log2_two_pow (e : Nat) : Nat.log2 (2 ^ e) = e := Nat.log2_two_pow

theorem fwht_length {a : List Int} {e : Nat} (ha : a.length = 2 ^ e) : (fwht a).length = 2 ^ e := by
  unfold fwht
  split
  · exact ha
  · simp only
    rw [stages_length]
    have : isPowerOfTwo a.length = true := by rw [ha]; exact isPowerOfTwo_iff.2 ⟨e, rfl⟩
    rw [if_pos this, ha, log2_two_pow]
    simp [ha]

/-- the entries of the transform -/
theorem fwht_spec {a : List Int} {e : Nat} (ha : a.length = 2 ^ e) {k : Nat} (hk : k < 2 ^ e) :
    ent (fwht a) k = ∑ j ∈ range (2 ^ e), chi e j k * ent a j := by
  unfold fwht
  by_cases h : a.length < 2
  · rw [if_pos h]
    have he : e = 0 := by
      by_contra hc
      have : 2 ^ 1 ≤ 2 ^ e := Nat.pow_le_pow_right (by omega) (by omega)
      omega
    subst he
    have : k = 0 := by omega
    subst this
    simp [chi]
  · rw [if_neg h]
    simp only
    have : isPowerOfTwo a.length = true := by rw [ha]; exact isPowerOfTwo_iff.2 ⟨e, rfl⟩
    rw [if_pos this, ha, log2_two_pow, Nat.sub_self, List.replicate_zero, List.append_nil, stages_spec a ha e le_rfl k hk]
    refine sum_congr rfl fun j _ => ?_
    rw [Nat.mod_eq_of_lt hk, Nat.sub_self, Nat.zero_add]

/-- orthogonality -/
theorem sum_chi {e d : Nat} (hd : d < 2 ^ e) : ∑ k ∈ range (2 ^ e), chi e d k = if d = 0 then (2 : Int) ^ e else 0 := by
  by_cases h : d = 0
  · subst h
    simp [chi_zero]
  · rw [if_neg h]
    obtain ⟨t, ht⟩ : ∃ t, d.testBit t = true := by
      by_contra hc
      push Not at hc
      exact h (Nat.eq_of_testBit_eq fun t => by simp [hc t])
    have hte : t < e := by
      by_contra hc
      rw [Nat.testBit_lt_two_pow (lt_of_lt_of_le hd (Nat.pow_le_pow_right (by omega) (by omega)))] at ht
      cases ht
    have hflip : ∀ k, chi e d (k ^^^ 2 ^ t) = - chi e d k := by
      intro k
      rw [chi_comm e d, ← chi_mul, chi_comm e k d]
      have : chi e (2 ^ t) d = -1 := by
        unfold chi
        rw [prod_eq_single t]
        · rw [Nat.testBit_two_pow_self, ht]; rfl
        · intro b _ hb
          rw [Nat.testBit_two_pow_of_ne (Ne.symm hb)]; rfl
        · intro hc
          exact absurd (mem_range.2 hte) hc
      rw [this]; ring
    have hs : ∑ k ∈ range (2 ^ e), chi e d k = ∑ k ∈ range (2 ^ e), - chi e d k := by
      have hlt : ∀ k < 2 ^ e, k ^^^ 2 ^ t < 2 ^ e := fun k hk => Nat.xor_lt_two_pow hk (Nat.pow_lt_pow_right (by omega) hte)
      refine sum_nbij' (fun k => k ^^^ 2 ^ t) (fun k => k ^^^ 2 ^ t) ?_ ?_ ?_ ?_ ?_
      · intro k hk; rw [mem_range] at *; exact hlt k hk
      · intro k hk; rw [mem_range] at *; exact hlt k hk
      · intro k _; simp only [Nat.xor_assoc, Nat.xor_self, Nat.xor_zero]
      · intro k _; simp only [Nat.xor_assoc, Nat.xor_self, Nat.xor_zero]
      · intro k _; rw [hflip]; ring
    rw [sum_neg_distrib] at hs
    omega

theorem sum_chi_mul {e i j : Nat} (hi : i < 2 ^ e) (hj : j < 2 ^ e) :
    ∑ k ∈ range (2 ^ e), chi e i k * chi e j k = if i = j then (2 : Int) ^ e else 0 := by
  rw [sum_congr rfl fun k _ => chi_mul e i j k, sum_chi (Nat.xor_lt_two_pow hi hj)]
  congr 1
  rw [Nat.xor_eq_zero_iff]

/-- the transform is its own inverse up to the factor `2 ** e` -/
theorem fwht_fwht {a : List Int} {e : Nat} (ha : a.length = 2 ^ e) {k : Nat} (hk : k < 2 ^ e) : ent (fwht (fwht a)) k = 2 ^ e * ent a k := by
  rw [fwht_spec (fwht_length ha) hk]
  have h1 : ∀ j ∈ range (2 ^ e), chi e j k * ent (fwht a) j = ∑ i ∈ range (2 ^ e), chi e i j * chi e k j * ent a i := by
    intro j hj
    rw [mem_range] at hj
    rw [fwht_spec ha hj, mul_sum]
    refine sum_congr rfl fun i _ => ?_
    rw [chi_comm e j k]; ring
  rw [sum_congr rfl h1, sum_comm]
  have h2 : ∀ i ∈ range (2 ^ e), ∑ j ∈ range (2 ^ e), chi e i j * chi e k j * ent a i = if i = k then 2 ^ e * ent a i else 0 := by
    intro i hi
    rw [mem_range] at hi
    rw [← sum_mul, sum_chi_mul hi hk]
    split <;> simp
  rw [sum_congr rfl h2, sum_ite_eq' (range (2 ^ e)) k, if_pos (mem_range.2 hk)]

/-- Parseval -/
theorem fwht_parseval {a : List Int} {e : Nat} (ha : a.length = 2 ^ e) :
    ∑ k ∈ range (2 ^ e), ent (fwht a) k * ent (fwht a) k = 2 ^ e * ∑ i ∈ range (2 ^ e), ent a i * ent a i := by
  have h1 : ∀ k ∈ range (2 ^ e), ent (fwht a) k * ent (fwht a) k = ∑ i ∈ range (2 ^ e), (chi e i k * ent (fwht a) k) * ent a i := by
    intro k hk
    rw [mem_range] at hk
    conv_lhs => rw [fwht_spec ha hk, sum_mul]
    refine sum_congr rfl fun i _ => ?_
    rw [← fwht_spec ha hk]; ring
  rw [sum_congr rfl h1, sum_comm, mul_sum]
  refine sum_congr rfl fun i hi => ?_
  rw [mem_range] at hi
  rw [← sum_mul]
  have h2 := fwht_spec (fwht_length ha) hi
  rw [fwht_fwht ha hi] at h2
  rw [← mul_assoc, h2]
  congr 1
  refine sum_congr rfl fun k _ => ?_
  rw [chi_comm e k i]

theorem list_ext_ent {a b : List Int} (hl : a.length = b.length) (h : ∀ k < a.length, ent a k = ent b k) : a = b := by
  apply List.ext_getElem hl
  intro i h1 h2
  have := h i h1
  unfold ent at this
  rw [List.getD_eq_getElem?_getD, List.getD_eq_getElem?_getD, List.getElem?_eq_getElem h1, List.getElem?_eq_getElem h2] at this
  exact this

end Verif.BF
