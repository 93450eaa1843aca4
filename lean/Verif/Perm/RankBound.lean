import Verif.Perm.RankSymmetry

/-! # C193: the size of the left rank -/

namespace Verif.P
open Verif.Py

theorem countP_lt_range (m x : Nat) : (List.range m).countP (· < x) = min x m := by
  induction m with
  | zero => simp
  | succ m ih =>
    rw [List.range_succ, List.countP_append, ih, List.countP_singleton]
    by_cases h : m < x
    · simp only [h, decide_true, if_true]; omega
    · simp only [h, decide_false]; simp; omega

theorem get_list_perm {p : Perm} (hp : Constructed p) (hf : p.perilen = none) {n : Nat} (hn : p.length ≤ n) :
    ((List.range n).map p.get).Perm (List.range n) := by
  have hlt := hp.wf.maps_below n (Or.inl ⟨hf, hn⟩)
  have hnd : ((List.range n).map p.get).Nodup := List.nodup_range.map hp.wf.get_bijective.1
  refine (List.subperm_of_subset hnd fun x hx => ?_).perm_of_length_le (by simp)
  obtain ⟨i, hi, rfl⟩ := List.mem_map.1 hx
  exact List.mem_range.2 (hlt i (List.mem_range.1 hi))

/-- **C193.** For a permutation of the numbers up to n, the leading factorial digit of the left rank tells the image of n. -/
theorem C193_leading (p : Perm) (hp : Constructed p) (hf : p.perilen = none) (n : Nat) (hn : p.length ≤ n + 1) :
    ∃ r, p.leftRank = .ok r ∧ p.get n ≤ n ∧ r / n.factorial = n - p.get n := by
  refine ⟨_, leftRank_extend hp hf hn, ?_, ?_⟩
  · have := hp.wf.maps_below (n + 1) (Or.inl ⟨hf, hn⟩) n (by omega)
    omega
  · have hl := get_list_perm hp hf hn
    have hl' : ((List.range (n + 1)).map p.get).Perm (List.range ((List.range (n + 1)).map p.get).length) := by simpa using hl
    have hc := revComp_perm hl'
    have e : revComp ((List.range (n + 1)).map p.get) = (n - p.get n) :: (((List.range n).map p.get).map (n - ·)).reverse := by
      unfold revComp
      rw [List.length_map, List.length_range, List.range_succ, List.map_append, List.map_append, List.reverse_append]
      rfl
    rw [e] at hc ⊢
    unfold rankR
    have hlen : (((List.range n).map p.get).map (n - ·)).reverse.length = n := by simp
    rw [List.length_cons, hlen] at hc
    have h1 := hc.countP_eq (fun y => decide (y < n - p.get n))
    rw [countP_lt_range, List.countP_cons] at h1
    simp only [Nat.lt_irrefl, decide_false] at h1
    have h2 := rankR_lt (((List.range n).map p.get).map (n - ·)).reverse
    rw [hlen] at h2 ⊢
    have h3 : (((List.range n).map p.get).map (n - ·)).reverse.countP (fun y => decide (y < n - p.get n)) = n - p.get n := by
      simp only [Bool.false_eq_true, if_false, Nat.add_zero] at h1
      omega
    rw [h3, Nat.add_comm, Nat.add_mul_div_right _ _ (Nat.factorial_pos n), Nat.div_eq_of_lt h2, Nat.zero_add]

/-- **C193.** The left rank is below n!, iff the length is at most n. -/
theorem C193_bound (p : Perm) (hp : Constructed p) (hf : p.perilen = none) (n : Nat) :
    ∃ r, p.leftRank = .ok r ∧ (r < n.factorial ↔ p.length ≤ n) := by
  by_cases h : p.length ≤ n
  · refine ⟨_, leftRank_extend hp hf h, ?_⟩
    have := rankR_lt (revComp ((List.range n).map p.get))
    rw [length_revComp, List.length_map, List.length_range] at this
    exact ⟨fun _ => h, fun _ => this⟩
  · obtain ⟨m, hm⟩ : ∃ m, p.length = m + 1 := ⟨p.length - 1, by omega⟩
    obtain ⟨r, r1, r2, r3⟩ := C193_leading p hp hf m (by omega)
    refine ⟨r, r1, ?_⟩
    have hmv : p.get m ≠ m := fun e => by
      have := (C05_length_minimal p hp hf m).1 fun i hi => by
        rcases Nat.lt_or_ge m i with h1 | h1
        · exact hp.wf.finite_bounded hf (by omega)
        · rw [Nat.le_antisymm h1 hi, e]
      omega
    have h1 : m.factorial ≤ r := by
      by_contra hc
      rw [Nat.div_eq_of_lt (by omega)] at r3
      omega
    have h2 := Nat.factorial_le (show n ≤ m by omega)
    constructor
    · intro h3; omega
    · intro h3; omega

/-- **C193.** So `int_to_perm` gives exactly the permutations of length at most n for the numbers below n!. -/
theorem C193_enumerates (n : Nat) :
    (∀ r < n.factorial, ∃ p, intToPerm r = .ok p ∧ p.perilen = none ∧ p.length ≤ n) ∧
    ∀ p, Constructed p → p.perilen = none → p.length ≤ n → ∃ r < n.factorial, OkEq (intToPerm r) (.ok p) := by
  constructor
  · intro r hr
    obtain ⟨p, p1, p2, p3, p4⟩ := C15_rank_of_int r
    obtain ⟨r', r1, r2⟩ := C193_bound p p2 p3 n
    rw [p4] at r1
    cases r1
    exact ⟨p, p1, p3, r2.1 hr⟩
  · intro p hp hf hn
    obtain ⟨r, r1, r2⟩ := C193_bound p hp hf n
    obtain ⟨r', r1', r3⟩ := C15_int_of_rank p hp hf
    rw [r1] at r1'
    cases r1'
    exact ⟨r, r2.2 hn, r3⟩

/-- The rank 13 of 2 0 3 1 is between 3! and 4!, and the leading digit 13 // 3! = 2 is 3 - 1. -/
example : (do
    let p ← mkPerm (.seq [2, 0, 3, 1])
    return (← p.leftRank, p.length, p.get 3)) = .ok (13, 4, 1) := by decide +kernel

end Verif.P
