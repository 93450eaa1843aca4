import Verif.Perm.Props3

/-! # C189: ranks of complementary and rotated arrangements -/

namespace Verif.P
open Verif.Py

theorem perm_of_list {l : List Nat} (hl : l.Perm (List.range l.length)) : ∃ p, mkPerm (.seq l) = .ok p ∧ Constructed p ∧ p.perilen = none ∧
    (List.range l.length).map p.get = l ∧ p.length ≤ l.length ∧ (l ≠ [] → l.getLast? ≠ some (l.length - 1) → p.length = l.length) := by
  obtain ⟨m, m1, m2, m3⟩ := argMapping_seq hl
  obtain ⟨p, p1, p2, p3, p4⟩ := finish_none m2
  have hmk : mkPerm (.seq l) = .ok p := by unfold mkPerm; rw [m1]; exact p1
  have hc : Constructed p := ⟨.seq l, none, trivial, hmk⟩
  have hget : ∀ i, p.get i = (l[i]?).getD i := fun i => by rw [p4, m3]
  have hle : p.length ≤ l.length := by
    rw [← C05_length_minimal p hc p3]
    intro i hi; rw [hget, List.getElem?_eq_none hi]; rfl
  refine ⟨p, hmk, hc, p3, ?_, hle, fun h0 h1 => ?_⟩
  · apply List.ext_getElem
    · simp
    · intro i h1 h2; simp [hget, h2]
  · have hpos : 0 < l.length := List.length_pos_iff.2 h0
    by_contra hne
    have hfix : p.get (l.length - 1) = l.length - 1 := hc.wf.finite_bounded p3 (by omega)
    rw [hget, ← List.getLast?_eq_getElem?] at hfix
    obtain ⟨x, hx⟩ : ∃ x, l.getLast? = some x := ⟨_, List.getLast?_eq_some_getLast h0⟩
    rw [hx] at hfix h1
    exact h1 (congrArg some hfix)

theorem comp_perm {l : List Nat} (hl : l.Perm (List.range l.length)) :
    (l.map (l.length - 1 - ·)).Perm (List.range (l.map (l.length - 1 - ·)).length) := by
  have := revComp_perm hl
  rw [length_revComp] at this
  rw [List.length_map]
  exact (List.reverse_perm _).symm.trans this

theorem rankR_comp {n : Nat} (s : List Nat) (hs : s.Nodup) (hn : ∀ x ∈ s, x < n) : rankR (s.map (n - 1 - ·)) + rankR s + 1 = s.length.factorial := by
  induction s with
  | nil => rfl
  | cons x xs ih =>
    have hx := hn x List.mem_cons_self
    have ih := ih (List.nodup_cons.1 hs).2 fun y hy => hn y (List.mem_cons_of_mem _ hy)
    have hc : (xs.map (n - 1 - ·)).countP (· < n - 1 - x) + xs.countP (· < x) = xs.length := by
      rw [List.countP_map, Nat.add_comm, List.length_eq_countP_add_countP (fun y => decide (y < x))]
      congr 1
      refine List.countP_congr fun y hy => ?_
      have hy1 := hn y (List.mem_cons_of_mem _ hy)
      have hy2 : y ≠ x := fun e => (List.nodup_cons.1 hs).1 (e ▸ hy)
      simp only [Function.comp, decide_eq_true_eq]
      omega
    rw [List.map_cons]
    unfold rankR
    rw [List.length_map, List.length_cons, Nat.factorial_succ, Nat.add_mul, Nat.one_mul, ← hc, Nat.add_mul, hc]
    omega

/-- **C189.** The left ranks of an arrangement and of the complementary one have the sum n! - 1. -/
theorem C189_left (l : List Nat) (hl : l.Perm (List.range l.length)) :
    ∃ p q a b, mkPerm (.seq l) = .ok p ∧ mkPerm (.seq (l.map (l.length - 1 - ·))) = .ok q ∧ p.leftRank = .ok a ∧ q.leftRank = .ok b ∧
      a + b + 1 = l.length.factorial := by
  obtain ⟨p, p1, p2, p3, p4, p5, _⟩ := perm_of_list hl
  obtain ⟨q, q1, q2, q3, q4, q5, _⟩ := perm_of_list (comp_perm hl)
  refine ⟨p, q, _, _, p1, q1, leftRank_extend p2 p3 p5, leftRank_extend q2 q3 q5, ?_⟩
  rw [p4, q4]
  have hlt := perm_range_lt hl
  have e : revComp (l.map (l.length - 1 - ·)) = (revComp l).map (l.length - 1 - ·) := by
    unfold revComp
    rw [List.length_map, List.map_reverse]
  have hr := revComp_perm hl
  rw [length_revComp] at hr
  have := rankR_comp (n := l.length) (revComp l) (hr.nodup_iff.2 List.nodup_range) fun x hx => List.mem_range.1 (hr.mem_iff.1 hx)
  rw [e]
  rw [length_revComp] at this
  omega

/-- **C189.** The same for the right ranks, if neither 0 nor n - 1 is the last entry (so that both permutations have the length n). -/
theorem C189_right (l : List Nat) (hl : l.Perm (List.range l.length)) (h0 : l ≠ []) (h1 : l.getLast? ≠ some 0) (h2 : l.getLast? ≠ some (l.length - 1)) :
    ∃ p q a b, mkPerm (.seq l) = .ok p ∧ mkPerm (.seq (l.map (l.length - 1 - ·))) = .ok q ∧ p.rightRank = .ok a ∧ q.rightRank = .ok b ∧
      a + b + 1 = l.length.factorial := by
  obtain ⟨p, p1, p2, p3, p4, _, p6⟩ := perm_of_list hl
  obtain ⟨q, q1, q2, q3, q4, _, q6⟩ := perm_of_list (comp_perm hl)
  refine ⟨p, q, _, _, p1, q1, rightRank_eq p3, rightRank_eq q3, ?_⟩
  have hlt := perm_range_lt hl
  have hq := q6 (by simpa using h0) (by
    rw [List.getLast?_map, List.length_map]
    obtain ⟨x, hx⟩ : ∃ x, l.getLast? = some x := ⟨_, List.getLast?_eq_some_getLast h0⟩
    have := hlt x (List.mem_of_getLast? hx)
    rw [hx] at h1 ⊢
    simp only [Option.map_some, ne_eq, Option.some.injEq] at h1 ⊢
    omega)
  rw [p6 h0 h2, hq, p4, q4]
  have := rankR_comp (n := l.length) l (hl.nodup_iff.2 List.nodup_range) hlt
  omega

/-- **C189.** If the first entry is not 0, the right rank of the reversed complementary arrangement is the left rank of the arrangement. -/
theorem C189_rotate (l : List Nat) (hl : l.Perm (List.range l.length)) (h0 : l ≠ []) (h1 : l.head? ≠ some 0) :
    ∃ p q a, mkPerm (.seq l) = .ok p ∧ mkPerm (.seq (l.map (l.length - 1 - ·)).reverse) = .ok q ∧ p.leftRank = .ok a ∧ q.rightRank = .ok a := by
  obtain ⟨p, p1, p2, p3, p4, p5, _⟩ := perm_of_list hl
  obtain ⟨q, q1, q2, q3, q4, _, q6⟩ := perm_of_list (revComp_perm hl)
  refine ⟨p, q, _, p1, q1, leftRank_extend p2 p3 p5, ?_⟩
  rw [rightRank_eq q3]
  have hlt := perm_range_lt hl
  rw [q6 (by unfold revComp; simpa using h0) (by
    rw [length_revComp]
    unfold revComp
    rw [List.getLast?_reverse, List.head?_map]
    obtain ⟨x, hx⟩ : ∃ x, l.head? = some x := ⟨_, List.head?_eq_some_head h0⟩
    have := hlt x (List.mem_of_mem_head? hx)
    rw [hx] at h1 ⊢
    simp only [Option.map_some, ne_eq, Option.some.injEq] at h1 ⊢
    omega), p4, q4]

/-- The complementary arrangement of 2 0 3 1 is 1 3 0 2, and 2 0 3 1 is also the reverse of that. -/
example : (do
    let p ← mkPerm (.seq [2, 0, 3, 1])
    let q ← mkPerm (.seq [1, 3, 0, 2])
    return (← p.leftRank, ← q.leftRank, ← p.rightRank, ← q.rightRank)) = .ok (13, 10, 13, 10) := by
  decide +kernel

/-- With 0 as last entry the right ranks have another sum, because the permutation from the complementary arrangement is shorter. -/
example : (do
    let p ← mkPerm (.seq [1, 2, 0])
    let q ← mkPerm (.seq [1, 0, 2])
    return (← p.leftRank, ← q.leftRank, ← p.rightRank, ← q.rightRank)) = .ok (4, 1, 3, 1) := by
  decide +kernel

end Verif.P
