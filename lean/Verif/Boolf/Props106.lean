import Verif.Boolf.Props100

/-! # C185: changes of a function along a direction, and functions far from all linear ones -/

namespace Verif.BF
open Verif.Py Verif.BV Verif.P Verif.W
open Verif.A hiding Mat
open Finset hiding sum_range

/-- Specification: the number of places below 2^n, where the values of the function at the place and at the place shifted by c are different. -/
def changes (n : Nat) (f : Boolf) (c : Nat) : Nat := ((range (2 ^ n)).filter fun i => f.eval i.testBit ≠ f.eval (i ^^^ c).testBit).card

theorem sum_shift {n : Nat} (i : Nat) (hi : i < 2 ^ n) (g : Nat → Int) : ∑ j ∈ range (2 ^ n), g j = ∑ c ∈ range (2 ^ n), g (i ^^^ c) := by
  symm
  refine sum_bij' (fun c _ => i ^^^ c) (fun c _ => i ^^^ c) (fun c hc => mem_range.2 (Nat.xor_lt_two_pow hi (mem_range.1 hc)))
    (fun c hc => mem_range.2 (Nat.xor_lt_two_pow hi (mem_range.1 hc))) (fun c _ => ?_) (fun c _ => ?_) (fun _ _ => rfl) <;>
  rw [← Nat.xor_assoc, Nat.xor_self, Nat.zero_xor]

theorem square_sum (n k : Nat) (s : Nat → Int) : (∑ i ∈ range (2 ^ n), chi n i k * s i) ^ 2 =
    ∑ c ∈ range (2 ^ n), chi n c k * ∑ i ∈ range (2 ^ n), s i * s (i ^^^ c) := by
  rw [pow_two, sum_mul]
  simp only [mul_sum]
  rw [sum_comm (s := range (2 ^ n)) (t := range (2 ^ n)) (f := fun c i => chi n c k * (s i * s (i ^^^ c)))]
  refine sum_congr rfl fun i hi => ?_
  rw [sum_shift i (mem_range.1 hi)]
  refine sum_congr rfl fun c _ => ?_
  have e : chi n c k = chi n i k * chi n (i ^^^ c) k := by rw [chi_mul, ← Nat.xor_assoc, Nat.xor_self, Nat.zero_xor]
  rw [e]
  ring

theorem sum_square (n : Nat) {c : Nat} (hc : c < 2 ^ n) (s : Nat → Int) :
    ∑ k ∈ range (2 ^ n), chi n c k * (∑ i ∈ range (2 ^ n), chi n i k * s i) ^ 2 = 2 ^ n * ∑ i ∈ range (2 ^ n), s i * s (i ^^^ c) := by
  have e : ∀ k ∈ range (2 ^ n), chi n c k * (∑ i ∈ range (2 ^ n), chi n i k * s i) ^ 2 =
      ∑ b ∈ range (2 ^ n), (chi n c k * chi n b k) * ∑ i ∈ range (2 ^ n), s i * s (i ^^^ b) := fun k _ => by
    rw [square_sum, mul_sum]
    exact sum_congr rfl fun b _ => by ring
  rw [sum_congr rfl e, sum_comm, sum_congr rfl fun b hb => by rw [← sum_mul, sum_chi_mul hc (mem_range.1 hb)]]
  rw [sum_eq_single c]
  · rw [if_pos rfl]
  · intro b _ hb
    rw [if_neg (Ne.symm hb), zero_mul]
  · exact fun h => absurd (mem_range.2 hc) h

theorem changes_sum (n : Nat) (f : Boolf) (c : Nat) :
    ∑ i ∈ range (2 ^ n), (1 - 2 * ((f.eval i.testBit).toNat : Int)) * (1 - 2 * ((f.eval (i ^^^ c).testBit).toNat : Int)) = 2 ^ n - 2 * changes n f c := by
  unfold changes
  rw [Finset.card_filter]
  push_cast
  rw [mul_sum, show (2 : Int) ^ n = ∑ _i ∈ range (2 ^ n), 1 by simp, ← sum_sub_distrib]
  refine sum_congr rfl fun i _ => ?_
  cases f.eval i.testBit <;> cases f.eval (i ^^^ c).testBit <;> rfl

theorem changes_zero (n : Nat) (f : Boolf) : changes n f 0 = 0 := by
  unfold changes
  rw [Finset.card_eq_zero, Finset.filter_eq_empty_iff]
  intro i _
  rw [Nat.xor_zero]
  exact fun h => h rfl

theorem distances_signs {f : Boolf} (hf : Obj f) {n : Nat} (hn : f.adicity ≤ n) : ∃ d, f.walshDistances (.arity n) = .ok d ∧ d.length = 2 ^ n ∧
    ∀ k < 2 ^ n, (2 : Int) ^ n - 2 * d.getD k 0 = ∑ i ∈ range (2 ^ n), chi n i k * (1 - 2 * ((f.eval i.testBit).toNat : Int)) := by
  refine ⟨_, distances_eq hf.good.toSound hn, by simp, fun k hk => ?_⟩
  rw [sum_signs, List.getD_eq_getElem?_getD, List.getElem?_map, List.getElem?_range hk, Option.map_some, Option.getD_some]

/-- **C185.** The squares of the differences between agreements and disagreements, taken with the signs of the c-th linear function, tell
at how many places the function changes along c. -/
theorem C185_changes (f : Boolf) (hf : Obj f) (n : Nat) (hn : f.adicity ≤ n) : ∃ d, f.walshDistances (.arity n) = .ok d ∧ d.length = 2 ^ n ∧
    ∀ c < 2 ^ n, ∑ k ∈ range (2 ^ n), (if (c &&& k).bitIndices.length % 2 = 1 then -1 else 1 : Int) * ((2 : Int) ^ n - 2 * d.getD k 0) ^ 2 =
      2 ^ n * (2 ^ n - 2 * (changes n f c : Int)) := by
  obtain ⟨d, d1, d2, d3⟩ := distances_signs hf hn
  refine ⟨d, d1, d2, fun c hc => ?_⟩
  rw [← changes_sum, ← sum_square n hc]
  refine sum_congr rfl fun k hk => ?_
  rw [d3 k (mem_range.1 hk)]
  congr 1
  have h := linF_bitIndices hc k
  rw [chi_comm, chi_eq (mem_range.1 hk)]
  rw [linF_overlap (mem_range.1 hk)] at h
  by_cases ho : Odd (overlap k c)
  · have he : ¬ Even (overlap k c) := Nat.not_even_iff_odd.2 ho
    simp [ho] at h
    simp [he, h]
  · have he : Even (overlap k c) := Nat.not_odd_iff_even.1 ho
    simp [ho] at h
    simp [he, h]

/-- **C185.** A function has the same distance from all linear functions (up to complement), iff it changes at half of the places
along each direction. -/
theorem C185_bent (f : Boolf) (hf : Obj f) (n : Nat) (hn : f.adicity ≤ n) : ∃ d, f.walshDistances (.arity n) = .ok d ∧ d.length = 2 ^ n ∧
    ((∀ k < 2 ^ n, ((2 : Int) ^ n - 2 * d.getD k 0) ^ 2 = 2 ^ n) ↔ ∀ c, 0 < c → c < 2 ^ n → 2 * changes n f c = 2 ^ n) := by
  obtain ⟨d, d1, d2, d3⟩ := distances_signs hf hn
  have hp : (2 : Int) ^ n ≠ 0 := by positivity
  refine ⟨d, d1, d2, fun h c h0 hc => ?_, fun h k hk => ?_⟩
  · have e := sum_square n hc fun i => 1 - 2 * ((f.eval i.testBit).toNat : Int)
    rw [changes_sum, sum_congr rfl fun k hk => by rw [← d3 k (mem_range.1 hk), h k (mem_range.1 hk)], ← sum_mul, sum_chi hc, if_neg (by omega),
      zero_mul] at e
    have := (mul_eq_zero.1 e.symm).resolve_left hp
    have : ((2 * changes n f c : Nat) : Int) = ((2 ^ n : Nat) : Int) := by push_cast; omega
    exact_mod_cast this
  · rw [d3 k hk, square_sum, sum_eq_single 0]
    · rw [changes_sum, changes_zero, chi_zero]; simp
    · intro c hc h0
      rw [changes_sum]
      have := h c (by omega) (mem_range.1 hc)
      have : ((2 * changes n f c : Nat) : Int) = ((2 ^ n : Nat) : Int) := by rw [this]
      push_cast at this
      rw [this]
      simp
    · exact fun h => absurd (mem_range.2 (by positivity)) h

theorem not_square (m r : Nat) : 2 ^ (2 * m + 1) ≠ r * r := by
  induction m generalizing r with
  | zero =>
    intro h
    rcases Nat.lt_or_ge r 2 with hr | hr
    · have : r = 0 ∨ r = 1 := by omega
      rcases this with rfl | rfl <;> simp at h
    · have := Nat.mul_le_mul hr hr
      omega
  | succ m ih =>
    intro h
    have he : Even (r * r) := by rw [← h]; exact ⟨2 ^ (2 * m + 2), by rw [show 2 * (m + 1) + 1 = 2 * m + 2 + 1 by omega, pow_succ]; omega⟩
    obtain ⟨s, rfl⟩ : Even r := by simpa [Nat.even_mul] using he
    apply ih s
    rw [show 2 * (m + 1) + 1 = 2 * m + 1 + 2 by omega, pow_add] at h
    nlinarith

/-- **C185.** For an odd arity there is no such function. -/
theorem C185_odd (f : Boolf) (hf : Obj f) (n : Nat) (hn : f.adicity ≤ n) (ho : n % 2 = 1) :
    ∃ c, 0 < c ∧ c < 2 ^ n ∧ 2 * changes n f c ≠ 2 ^ n := by
  by_contra hc
  push Not at hc
  obtain ⟨d, _, _, h⟩ := C185_bent f hf n hn
  have := h.2 hc 0 (by positivity)
  have h2 : IsSquare ((2 : Nat) ^ n) := by
    refine ⟨((2 : Int) ^ n - 2 * d.getD 0 0).natAbs, ?_⟩
    have := congrArg Int.natAbs this
    rw [Int.natAbs_pow, pow_two] at this
    rw [this, Int.natAbs_pow]
    rfl
  obtain ⟨m, rfl⟩ : ∃ m, n = 2 * m + 1 := ⟨n / 2, by omega⟩
  obtain ⟨r, hr⟩ := h2
  exact not_square m r hr

/-- **C185.** For an even arity 2m such a function is true at 2^(2m-1) - 2^(m-1) or at 2^(2m-1) + 2^(m-1) places. -/
theorem C185_weight (f : Boolf) (hf : Obj f) (m : Nat) (hn : f.adicity ≤ 2 * m)
    (h : ∀ c, 0 < c → c < 2 ^ (2 * m) → 2 * changes (2 * m) f c = 2 ^ (2 * m)) :
    2 * ((range (2 ^ (2 * m))).filter fun i => f.eval i.testBit = true).card + 2 ^ m = 2 ^ (2 * m) ∨
    2 * ((range (2 ^ (2 * m))).filter fun i => f.eval i.testBit = true).card = 2 ^ (2 * m) + 2 ^ m := by
  obtain ⟨d, d1, _, hd⟩ := C185_bent f hf (2 * m) hn
  obtain ⟨d', d1', _, d3⟩ := distances_signs hf hn
  rw [d1] at d1'
  cases d1'
  have h0 := hd.2 h 0 (by positivity)
  rw [d3 0 (by positivity)] at h0
  have e : ∑ i ∈ range (2 ^ (2 * m)), chi (2 * m) i 0 * (1 - 2 * ((f.eval i.testBit).toNat : Int)) =
      2 ^ (2 * m) - 2 * ((range (2 ^ (2 * m))).filter fun i => f.eval i.testBit = true).card := by
    rw [Finset.card_filter]
    push_cast
    rw [mul_sum, show (2 : Int) ^ (2 * m) = ∑ _i ∈ range (2 ^ (2 * m)), 1 by simp, ← sum_sub_distrib]
    refine sum_congr rfl fun i _ => ?_
    rw [chi_comm, chi_zero]
    cases f.eval i.testBit <;> rfl
  rw [e, show (2 : Int) ^ (2 * m) = (2 ^ m) ^ 2 by rw [← pow_mul, Nat.mul_comm], sq_eq_sq_iff_eq_or_eq_neg,
    show ((2 : Int) ^ m) ^ 2 = 2 ^ (2 * m) by rw [← pow_mul, Nat.mul_comm]] at h0
  rcases h0 with h0 | h0
  · left
    have : ((2 * ((range (2 ^ (2 * m))).filter fun i => f.eval i.testBit = true).card + 2 ^ m : Nat) : Int) = ((2 ^ (2 * m) : Nat) : Int) := by
      push_cast; linarith
    exact_mod_cast this
  · right
    have : ((2 * ((range (2 ^ (2 * m))).filter fun i => f.eval i.testBit = true).card : Nat) : Int) = ((2 ^ (2 * m) + 2 ^ m : Nat) : Int) := by
      push_cast; linarith
    exact_mod_cast this

/-- The function (x0 and x1) xor (x2 and x3) changes at 8 of 16 places along each direction, it has distance 6 or 10 from the linear functions. -/
example : (do
    let f ← newTT (.list [0, 0, 0, 1, 0, 0, 0, 1, 0, 0, 0, 1, 1, 1, 1, 0])
    return (← f.walshDistances (.arity 4), (List.range 16).map (changes 4 f))) =
      .ok ([6, 6, 6, 10, 6, 6, 6, 10, 6, 6, 6, 10, 10, 10, 10, 6], [0, 8, 8, 8, 8, 8, 8, 8, 8, 8, 8, 8, 8, 8, 8, 8]) := by
  decide +kernel

/-- The majority function of three arguments changes at all places along the direction 7. -/
example : (do
    let f ← newTT (.list [0, 0, 0, 1, 0, 1, 1, 1])
    return (← f.walshDistances (.arity 3), (List.range 8).map (changes 3 f))) = .ok ([4, 2, 2, 4, 2, 4, 4, 6], [0, 4, 4, 4, 4, 4, 4, 8]) := by
  decide +kernel

end Verif.BF
