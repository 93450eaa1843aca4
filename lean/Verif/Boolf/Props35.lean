import Verif.Boolf.Model10
import Verif.Boolf.Props34

/-!
# C93: the list of arrangements in the order of the indices
-/

namespace Verif.BF
open Verif.Py Verif.BV Verif.P Verif.W Verif.SP
open Verif.A hiding Mat

theorem mem_permutationsAux {α : Type} (n : Nat) (l : List α) (h : l.length = n) (p : List α) : p ∈ permutationsAux n l ↔ p.Perm l := by
  induction n generalizing l p with
  | zero => rw [List.length_eq_zero_iff.1 h]; simp [permutationsAux]
  | succ n ih =>
    simp only [permutationsAux, List.mem_flatMap, List.mem_range]
    constructor
    · rintro ⟨i, hi, hp⟩
      rw [List.getElem?_eq_getElem hi] at hp
      simp only [List.mem_map] at hp
      obtain ⟨q, hq, rfl⟩ := hp
      rw [ih _ (by rw [List.length_eraseIdx_of_lt hi]; omega)] at hq
      exact (hq.cons _).trans (List.getElem_cons_eraseIdx_perm hi)
    · intro hp
      cases p with
      | nil => simp at hp; simp [hp] at h
      | cons x q =>
        obtain ⟨i, hi, hx⟩ := List.mem_iff_getElem.1 (hp.mem_iff.1 (by simp : x ∈ x :: q))
        refine ⟨i, hi, ?_⟩
        rw [List.getElem?_eq_getElem hi]
        simp only [List.mem_map]
        refine ⟨q, (ih _ (by rw [List.length_eraseIdx_of_lt hi]; omega) _).2 ?_, by rw [hx]⟩
        have := hp.trans (List.getElem_cons_eraseIdx_perm hi).symm
        rw [hx] at this
        exact this.cons_inv

theorem mem_permutations {α : Type} (l p : List α) : p ∈ permutations l ↔ p.Perm l := mem_permutationsAux _ l rfl p

theorem length_permutationsAux {α : Type} (n : Nat) (l : List α) (h : l.length = n) : (permutationsAux n l).length = Nat.factorial n := by
  induction n generalizing l with
  | zero => rfl
  | succ n ih =>
    simp only [permutationsAux, List.length_flatMap]
    rw [List.map_congr_left (g := fun _ => Nat.factorial n)]
    · rw [List.map_const', List.sum_replicate, List.length_range, h]; rfl
    · intro i hi
      rw [List.getElem?_eq_getElem (List.mem_range.1 hi)]
      simp only [List.length_map]
      exact ih _ (by rw [List.length_eraseIdx_of_lt (List.mem_range.1 hi)]; omega)

theorem length_permutations {α : Type} (l : List α) : (permutations l).length = Nat.factorial l.length := length_permutationsAux _ l rfl

theorem permutationsAux_sorted (n : Nat) (l : List Nat) (h : l.length = n) (hs : l.Pairwise (· < ·)) : (permutationsAux n l).Pairwise (· < ·) := by
  induction n generalizing l with
  | zero => simp [permutationsAux]
  | succ n ih =>
    simp only [permutationsAux]
    rw [List.pairwise_flatMap]
    constructor
    · intro i hi
      rw [List.getElem?_eq_getElem (List.mem_range.1 hi)]
      simp only
      rw [List.pairwise_map]
      refine (ih _ (by rw [List.length_eraseIdx_of_lt (List.mem_range.1 hi)]; omega) (hs.sublist (List.eraseIdx_sublist _ _))).imp ?_
      intro a b hab
      exact List.cons_lt_cons_iff.2 (Or.inr ⟨rfl, hab⟩)
    · refine List.pairwise_lt_range.imp_of_mem ?_
      intro i j hi hj hij
      rw [List.getElem?_eq_getElem (List.mem_range.1 hi), List.getElem?_eq_getElem (List.mem_range.1 hj)]
      simp only [List.mem_map]
      rintro _ ⟨p, _, rfl⟩ _ ⟨q, _, rfl⟩
      exact List.cons_lt_cons_iff.2 (Or.inl (List.pairwise_iff_getElem.1 hs i j _ _ hij))

theorem permutations_sorted (l : List Nat) (hs : l.Pairwise (· < ·)) : (permutations l).Pairwise (· < ·) := permutationsAux_sorted _ l rfl hs

theorem revColexPerms_eq (n : Nat) : revColexPerms n = ((permutations (List.range n)).map List.reverse).reverse := by
  unfold revColexPerms
  suffices h : ∀ (l r : List (List Nat)), l.foldl (fun result p => p.reverse :: result) r = (l.map List.reverse).reverse ++ r by have := h (permutations (List.range n)) []; rwa [List.append_nil] at this
  intro l
  induction l with
  | nil => simp
  | cons x l ih => intro r; simp [ih]

theorem mem_revColexPerms (n : Nat) (p : List Nat) : p ∈ revColexPerms n ↔ p.Perm (List.range n) := by
  rw [revColexPerms_eq]
  simp only [List.mem_reverse, List.mem_map, mem_permutations]
  constructor
  · rintro ⟨q, hq, rfl⟩
    exact (List.reverse_perm q).trans hq
  · intro h
    exact ⟨p.reverse, (List.reverse_perm p).trans h, by simp⟩

theorem length_revColexPerms (n : Nat) : (revColexPerms n).length = Nat.factorial n := by
  rw [revColexPerms_eq]; simp [length_permutations]

theorem revColexPerms_pairwise (n : Nat) : (revColexPerms n).Pairwise (fun p q => q.reverse < p.reverse) := by
  rw [revColexPerms_eq, List.pairwise_reverse, List.pairwise_map]
  exact (permutations_sorted _ List.pairwise_lt_range).imp (by intro a b h; simpa only [List.reverse_reverse] using h)

/-- a strictly ascending list of `N` numbers below `N` is `range(N)` -/
theorem asc_eq_range {l : List Nat} {N : Nat} (hl : l.length = N) (hs : l.Pairwise (· < ·)) (hb : ∀ x ∈ l, x < N) : l = List.range N := by
  have hsub : l.Subperm (List.range N) := List.subperm_of_subset (hs.imp (fun h => Nat.ne_of_lt h)) (fun x hx => List.mem_range.2 (hb x hx))
  exact (hsub.perm_of_length_le (by simp [hl])).eq_of_pairwise (le := (· < ·)) (fun a b _ _ h1 h2 => by omega) hs List.pairwise_lt_range

theorem perm_of_seq {n : Nat} {s : List Nat} (hs : s.Perm (List.range n)) :
    ∃ p, mkPerm (.seq s) = .ok p ∧ Constructed p ∧ p.perilen = none ∧ p.length ≤ n ∧ (List.range n).map p.get = s ∧ ∀ i, i < n → s[i]? = some (p.get i) := by
  have hl : s.length = n := by rw [hs.length_eq]; simp
  obtain ⟨m, m1, m2, m3⟩ := argMapping_seq (l := s) (by rw [hl]; exact hs)
  obtain ⟨p, p1, p2, p3, p4⟩ := finish_none m2
  have hmk : mkPerm (.seq s) = .ok p := by unfold mkPerm; rw [m1]; exact p1
  have hc : Constructed p := ⟨.seq s, none, trivial, hmk⟩
  have hget : ∀ i, p.get i = (s[i]?).getD i := fun i => by rw [p4, m3]
  have hg : ∀ i, i < n → s[i]? = some (p.get i) := fun i hi => by rw [hget, List.getElem?_eq_getElem (by omega)]; rfl
  refine ⟨p, hmk, hc, p3, ?_, ?_, hg⟩
  · rw [← C05_length_minimal p hc p3]
    intro i hi
    rw [hget, List.getElem?_eq_none (by omega)]
    rfl
  · apply List.ext_getElem?
    intro i
    by_cases hi : i < n
    · rw [hg i hi]; simp [hi]
    · rw [List.getElem?_eq_none (by simp; omega), List.getElem?_eq_none (by omega)]

theorem revColex_rank {n : Nat} {s : List Nat} (hs : s.Perm (List.range n)) : rankR (revComp s) < Nat.factorial n := by
  have := rankR_lt (revComp s)
  rwa [length_revComp, hs.length_eq, List.length_range] at this

theorem revColex_ranks (n : Nat) : (revColexPerms n).map (fun s => rankR (revComp s)) = List.range (Nat.factorial n) := by
  apply asc_eq_range
  · rw [List.length_map, length_revColexPerms]
  · rw [List.pairwise_map]
    refine (revColexPerms_pairwise n).imp_of_mem ?_
    intro a b ha hb h
    rw [mem_revColexPerms] at ha hb
    obtain ⟨p, _, p2, p3, p4, p5, _⟩ := perm_of_seq ha
    obtain ⟨q, _, q2, q3, q4, q5, _⟩ := perm_of_seq hb
    obtain ⟨i, j, i1, j1, hij⟩ := C55_left_rank_order p q p2 q2 p3 q3 n p4 q4
    rw [leftRank_extend p2 p3 p4, p5] at i1
    rw [leftRank_extend q2 q3 q4, q5] at j1
    cases i1; cases j1
    rw [p5, q5] at hij
    exact hij.2 h
  · intro x hx
    obtain ⟨s, hs, rfl⟩ := List.mem_map.1 hx
    exact revColex_rank ((mem_revColexPerms n s).1 hs)

theorem intToPerm_rank {p q : Perm} {k : Nat} (hq : Constructed q) (hqf : q.perilen = none) (h : intToPerm k = .ok p) (hr : q.leftRank = .ok k) :
    p.eq q = true := by
  obtain ⟨n, n1, n2⟩ := C15_int_of_rank q hq hqf
  rw [hr] at n1
  cases n1
  rw [h] at n2
  obtain ⟨a, b, a1, b1, h⟩ := n2
  cases a1; cases b1
  exact h

/-- **C93.** Each list of length `n` contains all arrangements of `range(n)`, each of them once: the one at place `k` is that of `int_to_perm(k)`, and
so the entries for `n` are, with `n` appended, the first ones of those for `n + 1`. -/
theorem C93_rev_colex_perms (n : Nat) :
    (revColexPerms n).length = Nat.factorial n ∧ (revColexPerms n).Nodup ∧ (∀ s, s ∈ revColexPerms n ↔ s.Perm (List.range n)) ∧
    ∀ k, k < Nat.factorial n → ∃ p, intToPerm k = .ok p ∧ p.perilen = none ∧ p.length ≤ n ∧ (revColexPerms n)[k]? = some ((List.range n).map p.get) := by
  refine ⟨length_revColexPerms n, ?_, mem_revColexPerms n, fun k hk => ?_⟩
  · exact (revColexPerms_pairwise n).imp (by rintro a _ h rfl; exact lt_irrefl _ h)
  · obtain ⟨p, p1, p2, p3, p4⟩ := C15_rank_of_int k
    have hk' : k < (revColexPerms n).length := by rw [length_revColexPerms]; exact hk
    have hs := (mem_revColexPerms n _).1 (List.getElem_mem hk')
    obtain ⟨q, _, q2, q3, q4, q5, _⟩ := perm_of_seq hs
    have hr : q.leftRank = .ok k := by
      rw [leftRank_extend q2 q3 q4, q5]
      have := congrArg (fun l => l[k]?) (revColex_ranks n)
      simpa [List.getElem?_eq_getElem, hk', hk] using this
    have he := (C05_eq_extensional p q p2 q2).1 (intToPerm_rank q2 q3 p1 hr)
    refine ⟨p, p1, p3, ?_, ?_⟩
    · rw [← C05_length_minimal p p2 p3]
      intro i hi
      rw [he, q2.wf.finite_bounded q3 (by omega)]
    · rw [List.getElem?_eq_getElem hk', ← q5]
      congr 1
      exact List.map_congr_left fun i _ => (he i).symm

/-- **C93.** The arrangements of `range(n)` are continued by those of `range(n + 1)`. -/
theorem C93_prefix (n : Nat) : (revColexPerms n).map (· ++ [n]) = (revColexPerms (n + 1)).take (Nat.factorial n) := by
  obtain ⟨h1, _, _, h4⟩ := C93_rev_colex_perms n
  obtain ⟨k1, _, _, k4⟩ := C93_rev_colex_perms (n + 1)
  apply List.ext_getElem?
  intro k
  rw [List.getElem?_map, List.getElem?_take]
  by_cases hk : k < Nat.factorial n
  · obtain ⟨p, p1, p2, p3, p4⟩ := h4 k hk
    obtain ⟨q, q1, _, _, q4⟩ := k4 k (lt_of_lt_of_le hk (Nat.factorial_le (by omega)))
    rw [p1] at q1
    cases q1
    rw [if_pos hk, p4, q4, List.range_succ]
    obtain ⟨p', p1', p2', p3', _⟩ := C15_rank_of_int k
    rw [p1] at p1'
    cases p1'
    simp [p2'.wf.finite_bounded p3' (show p.length ≤ n by omega)]
  · rw [if_neg hk, List.getElem?_eq_none (by omega)]
    rfl

example : revColexPerms 3 = [[0, 1, 2], [1, 0, 2], [0, 2, 1], [2, 0, 1], [1, 2, 0], [2, 1, 0]] := by decide +kernel

end Verif.BF
