import Verif.Boolf.Model22
import Verif.Boolf.Props28

/-!
# C142: ring count vectors
-/

namespace Verif.BF
open Verif.Py Verif.BV Verif.P
open Verif.A hiding Mat

/-- Every entry is a place of a binary digit 1 of its predecessor, and the first one of `n`.  (With the numbers seen as Ackermann codes of sets, it is a descending
chain of elements.) -/
def IsDescent : Nat → List Nat → Prop
  | _, [] => True
  | n, x :: xs => n.testBit x = true ∧ IsDescent x xs

/-- the list of all descents with a given length -/
def descents : Nat → Nat → List (List Nat)
  | 0, _ => [[]]
  | k + 1, n => (bitsOf n).flatMap fun x => (descents k x).map (x :: ·)

theorem mem_descents : ∀ {k n : Nat} {p : List Nat}, p ∈ descents k n ↔ p.length = k ∧ IsDescent n p
  | 0, n, p => by
    rw [descents, List.mem_singleton, List.length_eq_zero_iff]
    constructor
    · rintro rfl; exact ⟨rfl, trivial⟩
    · exact fun h => h.1
  | k + 1, n, p => by
    rw [descents, List.mem_flatMap]
    constructor
    · rintro ⟨x, hx, hp⟩
      obtain ⟨q, hq, rfl⟩ := List.mem_map.1 hp
      rw [mem_descents] at hq
      exact ⟨by rw [List.length_cons, hq.1], mem_bitsOf.1 hx, hq.2⟩
    · rintro ⟨hl, hd⟩
      cases p with
      | nil => cases hl
      | cons x q =>
        exact ⟨x, mem_bitsOf.2 hd.1, List.mem_map.2 ⟨q, mem_descents.2 ⟨by simpa using hl, hd.2⟩, rfl⟩⟩

theorem nodup_descents : ∀ k n : Nat, (descents k n).Nodup
  | 0, n => by simp [descents]
  | k + 1, n => by
    rw [descents, List.nodup_flatMap]
    refine ⟨fun x _ => (nodup_descents k x).map (fun a b h => (List.cons.inj h).2), ?_⟩
    refine (bitsOf_asc n).imp fun {x y} h => ?_
    rw [Function.onFun, List.disjoint_left]
    intro p hp hq
    obtain ⟨a, _, rfl⟩ := List.mem_map.1 hp
    obtain ⟨b, _, e⟩ := List.mem_map.1 hq
    have := (List.cons.inj e).1
    omega

theorem lt_of_bit {n x : Nat} (h : n.testBit x = true) : x < n := (Nat.lt_two_pow_self).trans_le (Nat.ge_two_pow_of_testBit h)

/-- the elements of the elements of ... of `l` -/
def levels : Nat → List Nat → List Nat
  | 0, l => l
  | k + 1, l => levels k (l.flatMap bitsOf)

theorem levels_succ : ∀ (k : Nat) (l : List Nat), levels (k + 1) l = (levels k l).flatMap bitsOf
  | 0, l => rfl
  | k + 1, l => by rw [levels, levels_succ k]; rfl

theorem length_levels : ∀ (k : Nat) (l : List Nat), (levels k l).length = (l.map fun n => (descents k n).length).sum
  | 0, l => by
    rw [levels]
    induction l with
    | nil => rfl
    | cons x l ih => rw [List.map_cons, List.sum_cons, ← ih, List.length_cons]; simp [descents]; omega
  | k + 1, l => by
    rw [levels, length_levels k, List.map_flatMap, List.flatMap_def, List.sum_flatten, List.map_map]
    congr 1
    apply List.map_congr_left
    intro n _
    rw [descents, List.length_flatMap]
    simp

theorem levels_bound : ∀ (k : Nat) {n x : Nat}, x ∈ levels k [n] → x + k ≤ n
  | 0, n, x, h => by rw [levels, List.mem_singleton] at h; omega
  | k + 1, n, x, h => by
    rw [levels_succ, List.mem_flatMap] at h
    obtain ⟨y, hy, hx⟩ := h
    have := levels_bound k hy
    have := lt_of_bit (mem_bitsOf.1 hx)
    omega

theorem rcvNew_eq (l : List Nat) : rcvNew (l.map fun (i : Nat) => (i : Int)) = .ok ((l.flatMap bitsOf).map fun (i : Nat) => (i : Int)) := by
  unfold rcvNew
  rw [mapM_ok (g := fun e : Int => (bitsOf e.toNat).map fun (i : Nat) => (i : Int))]
  · simp only [bind, Except.bind, pure, Except.pure, List.map_map]
    rw [← List.flatMap_def, List.map_flatMap, List.flatMap_def]
    simp [List.flatMap_def, Function.comp_def]
  · intro e he
    obtain ⟨x, _, rfl⟩ := List.mem_map.1 he
    obtain ⟨b, hb, hx⟩ := exposet_bitsOf x
    rw [hb]
    simp only [bind, Except.bind, pure, Except.pure, hx, Int.toNat_natCast]

/-- the number of nonempty levels -/
theorem rcvLoop_eq (n m : Nat) (hm : levels m [n] = []) (hlt : ∀ k < m, levels k [n] ≠ []) : ∀ (d k : Nat) (rcv : List Nat), k + d = m → ∀ fuel, d < fuel →
    rcvLoop fuel ((levels k [n]).map fun (i : Nat) => (i : Int)) rcv = .ok (rcv ++ (List.range (d + 1)).map fun j => (levels (k + j) [n]).length)
  | d, k, rcv, hk, 0, hf => by omega
  | 0, k, rcv, hk, fuel + 1, hf => by
    obtain rfl : k = m := by omega
    rw [rcvLoop, rcvNew_eq]
    simp [bind, Except.bind, pure, Except.pure, hm]
  | d + 1, k, rcv, hk, fuel + 1, hf => by
    rw [rcvLoop, rcvNew_eq]
    simp only [bind, Except.bind, List.length_map]
    rw [if_neg (fun h => hlt k (by omega) (List.length_eq_zero_iff.1 h)), ← levels_succ, rcvLoop_eq n m hm hlt d (k + 1) _ (by omega) fuel (by omega)]
    rw [List.range_succ_eq_map (n := d + 1), List.map_cons, List.map_map, List.append_assoc, List.singleton_append]
    simp only [Function.comp_def, Nat.add_zero]
    congr 4
    funext j
    congr 2
    omega

theorem exists_height (n : Nat) : ∃ m, 1 ≤ m ∧ m ≤ n + 1 ∧ levels m [n] = [] ∧ ∀ k < m, levels k [n] ≠ [] := by
  have hex : ∃ m, levels m [n] = [] := ⟨n + 1, by
    rw [List.eq_nil_iff_forall_not_mem]
    intro x hx
    have := levels_bound (n + 1) hx
    omega⟩
  classical
  refine ⟨Nat.find hex, ?_, ?_, Nat.find_spec hex, fun k hk => Nat.find_min hex hk⟩
  · rw [Nat.one_le_iff_ne_zero]
    intro h
    have := Nat.find_spec hex
    rw [h] at this
    cases this
  · apply Nat.find_min'
    rw [List.eq_nil_iff_forall_not_mem]
    intro x hx
    have := levels_bound (n + 1) hx
    omega

theorem levels_nil : ∀ k, levels k [] = []
  | 0 => rfl
  | k + 1 => levels_nil k

theorem levels_add (j : Nat) : ∀ (k : Nat) (l : List Nat), levels (k + j) l = levels j (levels k l)
  | 0, l => by rw [Nat.zero_add, levels]
  | k + 1, l => by rw [show k + 1 + j = (k + j) + 1 by omega, levels, levels_add j k]; rfl

/-- **C142.** Entry `k` of the ring count vector is the number of descents from `n` with `k + 1` entries (0 behind the end), and the last entry is not 0. -/
theorem C142_rcv (n : Nat) : ∃ r, intToRcv n = .ok r ∧ (∀ x ∈ r, 0 < x) ∧
    ∀ k, {p : List Nat | p.length = k + 1 ∧ IsDescent n p}.Finite ∧ {p : List Nat | p.length = k + 1 ∧ IsDescent n p}.ncard = r.getD k 0 := by
  obtain ⟨m, h1, h2, h3, h4⟩ := exists_height n
  have hloop := rcvLoop_eq n m h3 h4 m 0 [] (by omega) (n + 2) (by omega)
  rw [levels, List.map_singleton, List.nil_append] at hloop
  obtain ⟨m, rfl⟩ : ∃ m', m = m' + 1 := ⟨m - 1, by omega⟩
  have hr : ((List.range (m + 1 + 1)).map fun j => (levels (0 + j) [n]).length).tail.dropLast = (List.range m).map fun j => (levels (j + 1) [n]).length := by
    rw [List.range_succ_eq_map, List.map_cons, List.tail_cons, List.map_map, List.range_succ, List.map_append, List.map_singleton, List.dropLast_concat]
    simp [Function.comp_def]
  refine ⟨(List.range m).map fun j => (levels (j + 1) [n]).length, ?_, ?_, ?_⟩
  · unfold intToRcv
    rw [Int.toNat_natCast, hloop]
    simp only [bind, Except.bind, pure, Except.pure]
    rw [hr]
  · intro x hx
    obtain ⟨j, hj, rfl⟩ := List.mem_map.1 hx
    rw [List.mem_range] at hj
    exact List.length_pos_iff.2 (h4 _ (by omega))
  · intro k
    have hset : {p : List Nat | p.length = k + 1 ∧ IsDescent n p} = ((descents (k + 1) n).toFinset : Set (List Nat)) := by
      ext p
      simp [mem_descents]
    rw [hset]
    refine ⟨Finset.finite_toSet _, ?_⟩
    rw [Set.ncard_coe_finset, List.toFinset_card_of_nodup (nodup_descents _ _)]
    have hl := length_levels (k + 1) [n]
    rw [List.map_singleton, List.sum_singleton] at hl
    rw [← hl]
    rw [List.getD_eq_getElem?_getD, List.getElem?_map]
    by_cases hk : k < m
    · rw [List.getElem?_range hk]
      rfl
    · rw [List.getElem?_eq_none (by simpa using hk)]
      simp only [Option.map_none, Option.getD_none, List.length_eq_zero_iff]
      rw [show k + 1 = (m + 1) + (k - m) by omega, levels_add, h3, levels_nil]

/-- **C142.** With a length, the vector is filled with zeros, or the length is too short.  Negative numbers are rejected. -/
theorem C142_length (n : Nat) (l : Int) : ∃ r, intToRcv n = .ok r ∧
    (r.length ≤ l → ∃ r', intToRcv n (some l) = .ok r' ∧ (r'.length : Int) = l ∧ ∀ k, r'.getD k 0 = r.getD k 0) ∧ (l < r.length → intToRcv n (some l) = .error .valueError) := by
  obtain ⟨r, h, _⟩ := C142_rcv n
  refine ⟨r, h, ?_⟩
  unfold intToRcv at h ⊢
  cases hl : rcvLoop ((n : Int).toNat + 2) [(n : Int)] [] with
  | error e => rw [hl] at h; cases h
  | ok rcv =>
    rw [hl] at h
    simp only [bind, Except.bind, pure, Except.pure] at h ⊢
    rw [Except.ok.inj h]
    constructor
    · intro hle
      rw [if_pos hle]
      refine ⟨_, rfl, by rw [List.length_append, List.length_replicate]; omega, fun k => ?_⟩
      rw [List.getD_eq_getElem?_getD, List.getD_eq_getElem?_getD]
      by_cases hk : k < r.length
      · rw [List.getElem?_append_left hk]
      · rw [List.getElem?_append_right (by omega), List.getElem?_eq_none (l := r) (by omega), List.getElem?_replicate]
        split <;> rfl
    · intro hlt
      rw [if_neg (by omega)]
      rfl

theorem C142_negative (n : Int) (h : n < 0) (l : Option Int) : intToRcv n l = .error .intvalError := by
  unfold intToRcv
  rw [rcvLoop, rcvNew]
  simp only [List.mapM_cons, bind, Except.bind]
  rw [C26_negative_intval n none none h]

/-- **C142.** The number determines the first entry (its binary weight), and adding a set that is not yet an element adds its ring count vector. -/
theorem C142_insert (n x : Nat) (h : n.testBit x = false) : ∃ r s t, intToRcv n = .ok r ∧ intToRcv x = .ok s ∧ intToRcv ((n ||| 2 ^ x : Nat) : Int) = .ok t ∧
    t.getD 0 0 = r.getD 0 0 + 1 ∧ ∀ k, t.getD (k + 1) 0 = r.getD (k + 1) 0 + s.getD k 0 := by
  obtain ⟨r, hr, _, r1⟩ := C142_rcv n
  obtain ⟨s, hs, _, s1⟩ := C142_rcv x
  obtain ⟨t, ht, _, t1⟩ := C142_rcv (n ||| 2 ^ x)
  have key : ∀ k m : Nat, {p : List Nat | p.length = k ∧ IsDescent m p}.ncard = (descents k m).length := fun k m => by
    have hset : {p : List Nat | p.length = k ∧ IsDescent m p} = ((descents k m).toFinset : Set (List Nat)) := by
      ext p
      simp [mem_descents]
    rw [hset, Set.ncard_coe_finset, List.toFinset_card_of_nodup (nodup_descents _ _)]
  have hperm : (bitsOf (n ||| 2 ^ x)).Perm (x :: bitsOf n) := by
    rw [List.perm_ext_iff_of_nodup ((bitsOf_asc _).imp fun h => Nat.ne_of_lt h) (List.nodup_cons.2 ⟨by rw [mem_bitsOf, h]; simp, (bitsOf_asc _).imp fun h => Nat.ne_of_lt h⟩)]
    intro y
    rw [List.mem_cons, mem_bitsOf, mem_bitsOf, Nat.testBit_or, Nat.testBit_two_pow, Bool.or_eq_true, decide_eq_true_eq, or_comm, eq_comm (a := x)]
  have hd : ∀ k, (descents (k + 1) (n ||| 2 ^ x)).length = (descents (k + 1) n).length + (descents k x).length := fun k => by
    simp only [descents, List.length_flatMap, List.length_map]
    rw [(hperm.map _).sum_eq, List.map_cons, List.sum_cons, Nat.add_comm]
  refine ⟨r, s, t, hr, hs, ht, ?_, fun k => ?_⟩
  · rw [← (t1 0).2, ← (r1 0).2, key, key, hd 0]
    rfl
  · rw [← (t1 (k + 1)).2, ← (r1 (k + 1)).2, ← (s1 k).2, key, key, key, hd (k + 1)]

/-- the rank of the example is 4 -/
example : intToRcv 576 = .ok [2, 4, 4, 2] ∧ intToRcv 576 (some 6) = .ok [2, 4, 4, 2, 0, 0] ∧ intToRcv 9 (some 2) = .error .valueError ∧ intToRcv 0 = .ok [] := by
  decide +kernel

example : IsDescent 576 [6, 2, 1, 0] := ⟨rfl, rfl, rfl, rfl, trivial⟩

end Verif.BF
