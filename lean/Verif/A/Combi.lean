import Mathlib.Data.List.Sort
import Mathlib.Data.List.Lex
import Mathlib.Algebra.Order.BigOperators.Group.List
import Mathlib.Data.Nat.Bitwise
import Mathlib.Data.Nat.Choose.Sum
import Mathlib.Tactic.Ring
import Verif.Py.Basic
import Verif.Py.Bin

/-! # Model of a/find_integer_partitions, a/hypercube_edges, a/sorted_colex, a/powerset; properties C122-C125 -/

namespace Verif.A
open Verif.Py

/-! ## Model -/

/-- `s.add(x)`; a set is a list without duplicates -/
def putNew {α : Type} [DecidableEq α] (s : List α) (x : α) : List α := if x ∈ s then s else s ++ [x]

/-- a/find_integer_partitions/__init__.py:4-6, for the remaining numbers `x`; `find` is the function, `order` is the order of a set -/
def partitionsLoop (order : List (List Int) → List (List Int)) (find : Int → Except Err (List (List Int))) (n : Int) : List Int → List (List Int) → Except Err (List (List Int))
  | [], result => .ok result
  | x :: xs, result => do
    let ys ← find (n - x)
    partitionsLoop order find n xs ((order ys).foldl (fun s y => putNew s ((x :: y).insertionSort (· ≤ ·))) result)

/-- a/find_integer_partitions/__init__.py:1-7; the number bounds the depth of recursion, `order` is the order of a set -/
def findIntegerPartitions (order : List (List Int) → List (List Int)) : Nat → Int → Except Err (List (List Int))
  | 0, _ => .error .diverges
  | fuel + 1, n => partitionsLoop order (findIntegerPartitions order fuel) n ((List.range' 1 (n.toNat - 1)).map fun k : Nat => (k : Int)) [[n]]

/-- comparison of pairs (python) -/
def PairLe (p q : Nat × Nat) : Prop := p.1 < q.1 ∨ (p.1 = q.1 ∧ p.2 ≤ q.2)

instance (p q : Nat × Nat) : Decidable (PairLe p q) := by unfold PairLe; infer_instance

/-- a/hypercube_edges/__init__.py:8-17 -/
def hypercubeEdgesNat : Nat → List (Nat × Nat)
  | 0 => []
  | 1 => [(0, 1)]
  | n + 2 =>
    let addend := 2 ^ (n + 1)
    let oldHalf := hypercubeEdgesNat (n + 1)
    let newHalf := oldHalf.map fun p => (p.1 + addend, p.2 + addend)
    let connections := (List.range addend).map fun i => (i, i + addend)
    (oldHalf ++ newHalf ++ connections).insertionSort PairLe

/-- a/hypercube_edges/__init__.py:6-17 -/
def hypercubeEdges (n : Int) : Except Err (List (Nat × Nat)) := if n ≥ 0 then .ok (hypercubeEdgesNat n.toNat) else .error .argValue

/-- a/sorted_colex/__init__.py:1-4, for lists of entries of an ordered type -/
def sortedColex {α : Type} [LinearOrder α] (unordered : List (List α)) : List (List α) :=
  ((unordered.map List.reverse).insertionSort (· ≤ ·)).map List.reverse

/-- `itertools.combinations(s, r)` -/
def combos {α : Type} : List α → Nat → List (List α)
  | _, 0 => [[]]
  | [], _ + 1 => []
  | x :: xs, r + 1 => (combos xs r).map (x :: ·) ++ combos xs (r + 1)

/-- a/powerset/__init__.py:4-7; the iterator is represented by the list of its elements -/
def powerset {α : Type} (s : List α) : List (List α) := (List.range (s.length + 1)).flatMap fun r => combos s r

/-! ## `find_integer_partitions` -/

theorem foldl_putNew {α β : Type} [DecidableEq β] (g : α → β) : ∀ (l : List α) (s : List β), s.Nodup →
    (l.foldl (fun s v => putNew s (g v)) s).Nodup ∧ ∀ x, x ∈ l.foldl (fun s v => putNew s (g v)) s ↔ x ∈ s ∨ ∃ v ∈ l, g v = x
  | [], s, h => by simpa using h
  | v :: l, s, h => by
    have hn : (putNew s (g v)).Nodup ∧ ∀ x, x ∈ putNew s (g v) ↔ x ∈ s ∨ x = g v := by
      unfold putNew
      split
      · next hm =>
        refine ⟨h, fun x => ⟨.inl, ?_⟩⟩
        rintro (h | rfl)
        · exact h
        · exact hm
      · next hm =>
        refine ⟨?_, fun x => by simp⟩
        rw [List.nodup_append]
        refine ⟨h, by simp, ?_⟩
        intro a ha b hb hab
        rw [List.mem_singleton] at hb
        subst hab
        subst hb
        exact hm ha
    obtain ⟨h1, h2⟩ := foldl_putNew g l _ hn.1
    rw [List.foldl_cons]
    refine ⟨h1, fun x => ?_⟩
    rw [h2, hn.2]
    constructor
    · rintro ((h | rfl) | ⟨w, hw, rfl⟩)
      · exact .inl h
      · exact .inr ⟨v, by simp, rfl⟩
      · exact .inr ⟨w, by simp [hw], rfl⟩
    · rintro (h | ⟨w, hw, rfl⟩)
      · exact .inl (.inl h)
      · rcases List.mem_cons.1 hw with rfl | hw
        · exact .inl (.inr rfl)
        · exact .inr ⟨w, hw, rfl⟩

/-- an ascending list of positive integers with the sum `n` -/
def IsPartition (n : Int) (l : List Int) : Prop := l.Pairwise (· ≤ ·) ∧ (∀ x ∈ l, 0 < x) ∧ l.sum = n

theorem partitionsLoop_spec {order : List (List Int) → List (List Int)} (ho : ∀ l, (order l).Perm l) {find : Int → Except Err (List (List Int))} {n : Int} :
    ∀ (xs : List Int) (result : List (List Int)), result.Nodup → (∀ x ∈ xs, ∃ r, find (n - x) = .ok r ∧ ∀ l, l ∈ r ↔ IsPartition (n - x) l) →
      ∃ r, partitionsLoop order find n xs result = .ok r ∧ r.Nodup ∧
        ∀ l, l ∈ r ↔ l ∈ result ∨ ∃ x ∈ xs, ∃ y, IsPartition (n - x) y ∧ (x :: y).insertionSort (· ≤ ·) = l
  | [], result, h, _ => ⟨result, rfl, h, by simp⟩
  | x :: xs, result, h, hf => by
    obtain ⟨ys, h1, h2⟩ := hf x (by simp)
    obtain ⟨n1, n2⟩ := foldl_putNew (fun y : List Int => (x :: y).insertionSort (· ≤ ·)) (order ys) result h
    obtain ⟨r, h3, h4, h5⟩ := partitionsLoop_spec ho xs _ n1 (fun x' hx' => hf x' (by simp [hx']))
    refine ⟨r, ?_, h4, fun l => ?_⟩
    · rw [partitionsLoop, h1]
      exact h3
    · rw [h5, n2]
      simp only [(ho ys).mem_iff, h2, List.exists_mem_cons_iff, or_assoc]

/-- **C122.** `find_integer_partitions(n)` for a positive number is the set of ascending tuples of positive numbers with the sum `n`. -/
theorem C122_find_integer_partitions {order : List (List Int) → List (List Int)} (ho : ∀ l, (order l).Perm l) :
    ∀ (fuel : Nat) (n : Int), 0 < n → n.toNat ≤ fuel → ∃ r, findIntegerPartitions order fuel n = .ok r ∧ r.Nodup ∧
      ∀ l, l ∈ r ↔ l.Pairwise (· ≤ ·) ∧ (∀ x ∈ l, 0 < x) ∧ l.sum = n
  | 0, n, h, h' => by omega
  | fuel + 1, n, h, h' => by
    rw [findIntegerPartitions]
    have hx : ∀ x : Int, x ∈ (List.range' 1 (n.toNat - 1)).map (fun k : Nat => (k : Int)) ↔ 1 ≤ x ∧ x < n := by
      intro x
      rw [List.mem_map]
      constructor
      · rintro ⟨k, hk, rfl⟩
        rw [List.mem_range'_1] at hk
        omega
      · rintro ⟨h1, h2⟩
        exact ⟨x.toNat, by rw [List.mem_range'_1]; omega, by omega⟩
    obtain ⟨r, h1, h2, h3⟩ := partitionsLoop_spec ho (find := findIntegerPartitions order fuel) (n := n) ((List.range' 1 (n.toNat - 1)).map fun k : Nat => (k : Int)) [[n]] (by simp) (by
      intro x hm
      have := (hx x).1 hm
      obtain ⟨r, q1, _, q2⟩ := C122_find_integer_partitions ho fuel (n - x) (by omega) (by omega)
      exact ⟨r, q1, q2⟩)
    refine ⟨r, h1, h2, fun l => ?_⟩
    rw [h3, List.mem_singleton]
    show _ ↔ IsPartition n l
    constructor
    · rintro (rfl | ⟨x, hm, y, ⟨_, y2, y3⟩, rfl⟩)
      · exact ⟨by simp, by simpa using h, by simp⟩
      · have := (hx x).1 hm
        refine ⟨List.pairwise_insertionSort _ _, ?_, ?_⟩
        · intro z hz
          rw [List.mem_insertionSort] at hz
          rcases List.mem_cons.1 hz with rfl | hz
          · omega
          · exact y2 z hz
        · rw [(List.perm_insertionSort (· ≤ ·) (x :: y)).sum_eq, List.sum_cons, y3]
          omega
    · rintro ⟨l1, l2, l3⟩
      match l, l1, l2, l3 with
      | [], _, _, l3 => simp at l3; omega
      | [a], _, _, l3 => simp at l3; exact .inl (by rw [l3])
      | x :: z :: y, l1, l2, l3 =>
        right
        have hxp := l2 x (by simp)
        have hzp := l2 z (by simp)
        have hy : 0 ≤ y.sum := List.sum_nonneg fun w hw => (l2 w (by simp [hw])).le
        rw [List.sum_cons, List.sum_cons] at l3
        refine ⟨x, (hx x).2 ⟨by omega, by omega⟩, z :: y, ⟨(List.pairwise_cons.1 l1).2, fun w hw => l2 w (List.mem_cons_of_mem _ hw), by rw [List.sum_cons]; omega⟩, ?_⟩
        exact l1.insertionSort_eq

/-- **C122.** For other integers the result is the set of one tuple of one entry. -/
theorem C122_not_positive (order : List (List Int) → List (List Int)) (fuel : Nat) (n : Int) (h : n ≤ 0) : findIntegerPartitions order (fuel + 1) n = .ok [[n]] := by
  rw [findIntegerPartitions, show n.toNat - 1 = 0 by omega]
  rfl

example : findIntegerPartitions id 4 4 = .ok [[4], [1, 3], [1, 1, 2], [1, 1, 1, 1], [2, 2]] := by decide +kernel

/-! ## `hypercube_edges` -/

instance : Std.Total PairLe := ⟨by unfold PairLe; intro a b; omega⟩
instance : IsTrans (Nat × Nat) PairLe := ⟨by unfold PairLe; intro a b c h1 h2; omega⟩

theorem add_two_pow_xor {a m : Nat} (h : a < 2 ^ m) : a + 2 ^ m = a ^^^ 2 ^ m := by
  have h1 := Nat.two_pow_add_eq_or_of_lt h 1
  rw [Nat.mul_one] at h1
  rw [Nat.add_comm, h1]
  apply Nat.eq_of_testBit_eq
  intro i
  rw [Nat.testBit_or, Nat.testBit_xor, Nat.testBit_two_pow]
  by_cases hi : m = i
  · subst hi
    rw [Nat.testBit_lt_two_pow h]
    simp
  · simp [hi]

/-- an edge of the hypercube: the second vertex is the first one with one more digit -/
def IsEdge (n a b : Nat) : Prop := b < 2 ^ n ∧ ∃ k, a.testBit k = false ∧ b = a ^^^ 2 ^ k

theorem lt_xor_two_pow {a k : Nat} (h : a.testBit k = false) : a < a ^^^ 2 ^ k := by
  apply Nat.lt_of_testBit k h
  · rw [Nat.testBit_xor, Nat.testBit_two_pow, h]; simp
  · intro j hj
    rw [Nat.testBit_xor, Nat.testBit_two_pow]
    simp [show ¬ k = j by omega]

theorem isEdge_step {m a b : Nat} : IsEdge (m + 1) a b ↔ IsEdge m a b ∨ (∃ a' b', IsEdge m a' b' ∧ a = a' + 2 ^ m ∧ b = b' + 2 ^ m) ∨ (a < 2 ^ m ∧ b = a + 2 ^ m) := by
  constructor
  · rintro ⟨hb, k, hk, rfl⟩
    have hlt := lt_xor_two_pow hk
    rw [Nat.pow_succ] at hb
    by_cases ham : a < 2 ^ m
    · by_cases hbm : a ^^^ 2 ^ k < 2 ^ m
      · exact .inl ⟨hbm, k, hk, rfl⟩
      · right; right
        refine ⟨ham, ?_⟩
        have : k = m := by
          by_contra hkm
          apply hbm
          apply Nat.xor_lt_two_pow ham
          apply Nat.pow_lt_pow_right (by omega)
          by_contra hc
          have h1 : (a ^^^ 2 ^ k).testBit k = true := by rw [Nat.testBit_xor, Nat.testBit_two_pow, hk]; simp
          have h2 := Nat.ge_two_pow_of_testBit h1
          have h3 : 2 ^ (m + 1) ≤ 2 ^ k := Nat.pow_le_pow_right (by omega) (by omega)
          rw [Nat.pow_succ] at h3
          omega
        subst this
        exact (add_two_pow_xor ham).symm
    · right; left
      have ha' : a - 2 ^ m < 2 ^ m := by omega
      have hb' : (a ^^^ 2 ^ k) - 2 ^ m < 2 ^ m := by omega
      have e1 : a = (a - 2 ^ m) ^^^ 2 ^ m := by rw [← add_two_pow_xor ha']; omega
      have e2 : a ^^^ 2 ^ k = ((a ^^^ 2 ^ k) - 2 ^ m) ^^^ 2 ^ m := by rw [← add_two_pow_xor hb']; omega
      refine ⟨a - 2 ^ m, (a ^^^ 2 ^ k) - 2 ^ m, ⟨hb', k, ?_, ?_⟩, by omega, by omega⟩
      · have hkm : k ≠ m := by
          rintro rfl
          rw [e1, Nat.testBit_xor, Nat.testBit_two_pow, Nat.testBit_lt_two_pow ha'] at hk
          simp at hk
        have : a.testBit k = ((a - 2 ^ m) ^^^ 2 ^ m).testBit k := by rw [← e1]
        rw [hk, Nat.testBit_xor, Nat.testBit_two_pow] at this
        simpa [show ¬ m = k from fun h => hkm h.symm] using this.symm
      · have h1 : (a ^^^ 2 ^ k) ^^^ 2 ^ m = (a - 2 ^ m) ^^^ 2 ^ k := by
          conv_lhs => rw [e1]
          rw [Nat.xor_assoc, Nat.xor_assoc, Nat.xor_comm (2 ^ k), ← Nat.xor_assoc (2 ^ m), Nat.xor_self, Nat.zero_xor]
        rw [← h1]
        conv_rhs => rw [e2]
        rw [Nat.xor_assoc, Nat.xor_self, Nat.xor_zero]
  · rintro (⟨hb, k, hk, rfl⟩ | ⟨a', b', ⟨hb, k, hk, rfl⟩, rfl, rfl⟩ | ⟨ha, rfl⟩)
    · exact ⟨by rw [Nat.pow_succ]; omega, k, hk, rfl⟩
    · have hlt := lt_xor_two_pow hk
      have ha : a' < 2 ^ m := by omega
      have hkm : k < m := by
        have h1 : (a' ^^^ 2 ^ k).testBit k = true := by rw [Nat.testBit_xor, Nat.testBit_two_pow, hk]; simp
        have h2 := Nat.ge_two_pow_of_testBit h1
        exact (Nat.pow_lt_pow_iff_right (a := 2) (by omega)).1 (by omega)
      refine ⟨by rw [Nat.pow_succ]; omega, k, ?_, ?_⟩
      · rw [add_two_pow_xor ha, Nat.testBit_xor, Nat.testBit_two_pow, hk]
        simp; omega
      · rw [add_two_pow_xor ha, add_two_pow_xor hb, Nat.xor_assoc, Nat.xor_assoc, Nat.xor_comm (2 ^ k)]
    · exact ⟨by rw [Nat.pow_succ]; omega, m, Nat.testBit_lt_two_pow ha, add_two_pow_xor ha⟩

theorem hypercube_nodup_length : ∀ n, (hypercubeEdgesNat n).Nodup ∧ (hypercubeEdgesNat n).length * 2 = n * 2 ^ n ∧ (∀ p, p ∈ hypercubeEdgesNat n ↔ IsEdge n p.1 p.2) ∧
    (hypercubeEdgesNat n).Pairwise PairLe
  | 0 => by
    refine ⟨by simp [hypercubeEdgesNat], by simp [hypercubeEdgesNat], fun p => ?_, by simp [hypercubeEdgesNat]⟩
    constructor
    · intro h; cases h
    · rintro ⟨h, k, hk, he⟩
      have := lt_xor_two_pow hk
      rw [Nat.pow_zero] at h
      omega
  | 1 => by
    refine ⟨by simp [hypercubeEdgesNat], by simp [hypercubeEdgesNat], fun ⟨a, b⟩ => ?_, by simp [hypercubeEdgesNat]⟩
    simp only [hypercubeEdgesNat, List.mem_singleton, Prod.mk.injEq]
    constructor
    · rintro ⟨rfl, rfl⟩
      exact ⟨by decide, 0, by decide, by decide⟩
    · rintro ⟨h, k, hk, he⟩
      have := lt_xor_two_pow hk
      rw [Nat.pow_one] at h
      omega
  | n + 2 => by
    obtain ⟨h1, h2, h3, _⟩ := hypercube_nodup_length (n + 1)
    have hp := List.perm_insertionSort PairLe (hypercubeEdgesNat (n + 1) ++ (hypercubeEdgesNat (n + 1)).map (fun p => (p.1 + 2 ^ (n + 1), p.2 + 2 ^ (n + 1))) ++
      (List.range (2 ^ (n + 1))).map fun i => (i, i + 2 ^ (n + 1)))
    have hlt : ∀ p ∈ hypercubeEdgesNat (n + 1), p.1 < p.2 ∧ p.2 < 2 ^ (n + 1) := by
      intro p hp
      obtain ⟨q1, k, q2, q3⟩ := (h3 p).1 hp
      exact ⟨by rw [q3]; exact lt_xor_two_pow q2, q1⟩
    refine ⟨?_, ?_, fun ⟨a, b⟩ => ?_, List.pairwise_insertionSort _ _⟩
    · rw [hypercubeEdgesNat, hp.nodup_iff, List.nodup_append, List.nodup_append]
      refine ⟨⟨h1, h1.map ?_, ?_⟩, List.nodup_range.map ?_, ?_⟩
      · rintro ⟨a, b⟩ ⟨c, d⟩ h
        simp only [Prod.mk.injEq] at h ⊢
        omega
      · rintro x hx y hy rfl
        obtain ⟨p, hp, rfl⟩ := List.mem_map.1 hy
        have := hlt _ hx
        simp only at this
        omega
      · intro a b h
        simp only [Prod.mk.injEq] at h
        omega
      · rintro x hx y hy rfl
        obtain ⟨i, hi, rfl⟩ := List.mem_map.1 hy
        rw [List.mem_range] at hi
        rcases List.mem_append.1 hx with hx | hx
        · have := hlt _ hx
          simp only at this
          omega
        · obtain ⟨p, hp, he⟩ := List.mem_map.1 hx
          simp only [Prod.mk.injEq] at he
          omega
    · rw [hypercubeEdgesNat, hp.length_eq, List.length_append, List.length_append, List.length_map, List.length_map, List.length_range]
      have : 2 ^ (n + 2) = 2 * 2 ^ (n + 1) := by rw [Nat.pow_succ]; omega
      rw [this]
      have e : (n + 2) * (2 * 2 ^ (n + 1)) = 2 * ((n + 1) * 2 ^ (n + 1)) + 2 * 2 ^ (n + 1) := by ring
      rw [e, ← h2]
      omega
    · rw [hypercubeEdgesNat, List.mem_insertionSort, List.mem_append, List.mem_append, isEdge_step, or_assoc]
      simp only [List.mem_map, List.mem_range, Prod.mk.injEq, h3]
      apply or_congr_right
      apply or_congr
      · constructor
        · rintro ⟨p, hp, rfl, rfl⟩
          exact ⟨p.1, p.2, hp, rfl, rfl⟩
        · rintro ⟨a', b', h, rfl, rfl⟩
          exact ⟨(a', b'), h, rfl, rfl⟩
      · constructor
        · rintro ⟨i, hi, rfl, rfl⟩
          exact ⟨hi, rfl⟩
        · rintro ⟨h, rfl⟩
          exact ⟨a, h, rfl, rfl⟩

/-- **C123.** `hypercube_edges(n)` is the strictly ascending list of the pairs of vertices of the `n`-dimensional hypercube that differ in one digit; the smaller vertex comes first.
There are `n * 2 ** (n - 1)` of them. -/
theorem C123_hypercube_edges (n : Nat) : ∃ l, hypercubeEdges n = .ok l ∧ (l.Pairwise fun p q => p.1 < q.1 ∨ (p.1 = q.1 ∧ p.2 < q.2)) ∧
    (∀ a b, (a, b) ∈ l ↔ b < 2 ^ n ∧ ∃ k, a.testBit k = false ∧ b = a ^^^ 2 ^ k) ∧ l.length * 2 = n * 2 ^ n := by
  obtain ⟨h1, h2, h3, h4⟩ := hypercube_nodup_length n
  refine ⟨hypercubeEdgesNat n, ?_, ?_, fun a b => h3 (a, b), h2⟩
  · unfold hypercubeEdges
    rw [if_pos (by omega)]
    rfl
  · refine (h4.and h1).imp ?_
    rintro ⟨a, b⟩ ⟨c, d⟩ ⟨h, hne⟩
    unfold PairLe at h
    simp only [ne_eq, Prod.mk.injEq] at h hne ⊢
    omega

/-- **C123.** Negative numbers are not allowed. -/
theorem C123_negative (n : Int) (h : n < 0) : hypercubeEdges n = .error .argValue := by
  unfold hypercubeEdges
  rw [if_neg (by omega)]

example : hypercubeEdges 3 = .ok [(0, 1), (0, 2), (0, 4), (1, 3), (1, 5), (2, 3), (2, 6), (3, 7), (4, 5), (4, 6), (5, 7), (6, 7)] := by decide +kernel

/-! ## `sorted_colex` -/

/-- lexicographic order of lists of the same length: the first difference -/
theorem lex_first_difference {α : Type} [LinearOrder α] : ∀ (x y : List α), x.length = y.length → x < y →
    ∃ (i : Nat) (a b : α), x[i]? = some a ∧ y[i]? = some b ∧ a < b ∧ ∀ j < i, x[j]? = y[j]?
  | [], [], _, h => by simp at h
  | a :: x, b :: y, hl, h => by
    rcases List.cons_lt_cons_iff.1 h with h' | ⟨rfl, h'⟩
    · exact ⟨0, a, b, rfl, rfl, h', by simp⟩
    · obtain ⟨i, c, d, h1, h2, h3, h4⟩ := lex_first_difference x y (by simpa using hl) h'
      refine ⟨i + 1, c, d, by simpa using h1, by simpa using h2, h3, fun j hj => ?_⟩
      match j with
      | 0 => rfl
      | j + 1 => simpa using h4 j (by omega)

/-- **C124.** `sorted_colex` rearranges its argument. -/
theorem C124_perm {α : Type} [LinearOrder α] (l : List (List α)) : (sortedColex l).Perm l := by
  unfold sortedColex
  refine ((List.perm_insertionSort _ _).map _).trans ?_
  rw [List.map_map]
  simp

/-- **C124.** Tuples of the same length are ordered by the last place where they differ. -/
theorem C124_order {α : Type} [LinearOrder α] (l : List (List α)) (n : Nat) (hl : ∀ x ∈ l, x.length = n) :
    (sortedColex l).Pairwise fun x y => x = y ∨ ∃ (i : Nat) (a b : α), x[i]? = some a ∧ y[i]? = some b ∧ a < b ∧ ∀ j > i, x[j]? = y[j]? := by
  unfold sortedColex
  rw [List.pairwise_map]
  refine (List.pairwise_insertionSort (· ≤ ·) _).imp_of_mem ?_
  intro x y hx hy hxy
  rw [List.mem_insertionSort, List.mem_map] at hx hy
  obtain ⟨x, hx', rfl⟩ := hx
  obtain ⟨y, hy', rfl⟩ := hy
  rw [List.reverse_reverse, List.reverse_reverse]
  rcases eq_or_lt_of_le hxy with h | h
  · left
    simpa using h
  · right
    have lx := hl x hx'
    have ly := hl y hy'
    obtain ⟨i, a, b, h1, h2, h3, h4⟩ := lex_first_difference _ _ (by simp [lx, ly]) h
    have hi : i < n := by
      have := (List.getElem?_eq_some_iff.1 h1).1
      rw [List.length_reverse, lx] at this
      exact this
    rw [List.getElem?_reverse (by omega), lx] at h1
    rw [List.getElem?_reverse (by omega), ly] at h2
    refine ⟨n - 1 - i, a, b, h1, h2, h3, fun j hj => ?_⟩
    by_cases hjn : j < n
    · have := h4 (n - 1 - j) (by omega)
      rw [List.getElem?_reverse (by omega), List.getElem?_reverse (by omega), lx, ly, show n - 1 - (n - 1 - j) = j by omega] at this
      exact this
    · rw [List.getElem?_eq_none (by omega), List.getElem?_eq_none (by omega)]

/-- **C124.** Binary vectors of the same length are ordered by the numbers of which they are the digits. -/
theorem C124_binary (l : List (List Bool)) (n : Nat) (hl : ∀ x ∈ l, x.length = n) : (sortedColex l).Pairwise fun x y => valB x ≤ valB y := by
  refine (C124_order l n hl).imp_of_mem ?_
  rintro x y hx hy (rfl | ⟨i, a, b, h1, h2, h3, h4⟩)
  · exact le_rfl
  · obtain ⟨rfl, rfl⟩ : a = false ∧ b = true := by
      revert h3
      clear h1 h2
      revert a b
      decide
    apply le_of_lt
    apply Nat.lt_of_testBit i
    · rw [testBit_valB, List.getD_eq_getElem?_getD, h1]; rfl
    · rw [testBit_valB, List.getD_eq_getElem?_getD, h2]; rfl
    · intro j hj
      rw [testBit_valB, testBit_valB, List.getD_eq_getElem?_getD, List.getD_eq_getElem?_getD, h4 j hj]

example : sortedColex [[0, 1, 0], [1, 0, 1], [1, 0, 0], [0, 0, 1]] = [[1, 0, 0], [0, 1, 0], [0, 0, 1], [1, 0, 1]] := by decide +kernel

/-! ## `powerset` -/

theorem mem_combos {α : Type} : ∀ {s : List α} {r : Nat} {l : List α}, l ∈ combos s r ↔ l.Sublist s ∧ l.length = r
  | s, 0, l => by
    have : combos s 0 = [[]] := by cases s <;> rfl
    rw [this, List.mem_singleton]
    constructor
    · rintro rfl
      exact ⟨List.nil_sublist _, rfl⟩
    · rintro ⟨_, h⟩
      exact List.length_eq_zero_iff.1 h
  | [], r + 1, l => by
    constructor
    · intro h; cases h
    · rintro ⟨h1, h2⟩
      rw [List.sublist_nil.1 h1] at h2
      cases h2
  | x :: xs, r + 1, l => by
    rw [combos, List.mem_append, List.mem_map, mem_combos]
    constructor
    · rintro (⟨l, hl, rfl⟩ | ⟨h1, h2⟩)
      · rw [mem_combos] at hl
        exact ⟨hl.1.cons_cons x, by simp [hl.2]⟩
      · exact ⟨h1.cons x, h2⟩
    · rintro ⟨h1, h2⟩
      cases h1 with
      | cons _ h => exact .inr ⟨h, h2⟩
      | cons_cons _ h => exact .inl ⟨_, mem_combos.2 ⟨h, by simpa using h2⟩, rfl⟩

theorem length_combos {α : Type} : ∀ (s : List α) (r : Nat), (combos s r).length = s.length.choose r
  | s, 0 => by
    have : combos s 0 = [[]] := by cases s <;> rfl
    simp [this]
  | [], r + 1 => rfl
  | x :: xs, r + 1 => by
    rw [combos, List.length_append, List.length_map, length_combos xs r, length_combos xs (r + 1), List.length_cons, Nat.choose_succ_succ]

theorem nodup_combos {α : Type} : ∀ (s : List α) (r : Nat), s.Nodup → (combos s r).Nodup
  | s, 0, _ => by
    have : combos s 0 = [[]] := by cases s <;> rfl
    simp [this]
  | [], r + 1, _ => List.nodup_nil
  | x :: xs, r + 1, h => by
    rw [List.nodup_cons] at h
    rw [combos, List.nodup_append]
    refine ⟨(nodup_combos xs r h.2).map (List.cons_injective), nodup_combos xs (r + 1) h.2, ?_⟩
    rintro a ha b hb rfl
    obtain ⟨l, hl, rfl⟩ := List.mem_map.1 ha
    exact h.1 ((mem_combos.1 hb).1.subset (by simp))

/-- **C125.** `powerset` contains exactly the tuples made by removing elements, in order of their lengths; `2 ** n` many for `n` elements. -/
theorem C125_powerset {α : Type} (s : List α) : (∀ l, l ∈ powerset s ↔ l.Sublist s) ∧ (powerset s).length = 2 ^ s.length ∧
    (powerset s).Pairwise (fun x y => x.length ≤ y.length) ∧ (s.Nodup → (powerset s).Nodup) := by
  unfold powerset
  refine ⟨fun l => ?_, ?_, ?_, fun h => ?_⟩
  · rw [List.mem_flatMap]
    constructor
    · rintro ⟨r, _, h⟩
      exact (mem_combos.1 h).1
    · intro h
      exact ⟨l.length, by rw [List.mem_range]; have := h.length_le; omega, mem_combos.2 ⟨h, rfl⟩⟩
  · rw [List.length_flatMap]
    simp only [length_combos]
    rw [← Nat.sum_range_choose]
    rfl
  · rw [List.pairwise_flatMap]
    refine ⟨fun r _ => ?_, ?_⟩
    · apply List.pairwise_of_forall_mem_list
      intro x hx y hy
      rw [(mem_combos.1 hx).2, (mem_combos.1 hy).2]
    · refine List.pairwise_lt_range.imp ?_
      intro i j hij x hx y hy
      rw [(mem_combos.1 hx).2, (mem_combos.1 hy).2]
      omega
  · rw [List.nodup_flatMap]
    refine ⟨fun r _ => nodup_combos s r h, List.nodup_range.imp ?_⟩
    intro i j hij x hx hy
    exact hij ((mem_combos.1 hx).2.symm.trans (mem_combos.1 hy).2)

example : powerset [5, 3, 7] = [[], [5], [3], [7], [5, 3], [5, 7], [3, 7], [5, 3, 7]] := by decide +kernel

end Verif.A
