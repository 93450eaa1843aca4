import Verif.Boolf.Model28
import Verif.Boolf.Model26
import Verif.Boolf.Props32
import Verif.Boolf.Props34
import Verif.Boolf.Props44
import Verif.Walsh.Ctor

/-! # Sequences, rows and matrices that are made from binary digits; property C156 -/

namespace Verif.BF
open Verif.Py Verif.BV Verif.P Verif.W Verif.SP
open Verif.A hiding Mat

/-! ## `repeat_sequence` -/

theorem flatten_replicate_get {α : Type} (s : List α) (c i : Nat) (hi : i < c * s.length) :
    (List.replicate c s).flatten[i]? = s[i % s.length]? := by
  induction c generalizing i with
  | zero => simp at hi
  | succ c ih =>
    rw [List.replicate_succ, List.flatten_cons]
    by_cases h : i < s.length
    · rw [List.getElem?_append_left h, Nat.mod_eq_of_lt h]
    · rw [List.getElem?_append_right (by omega), ih _ (by rw [Nat.succ_mul] at hi; omega), Nat.mod_eq_sub_mod (by omega : i ≥ s.length)]

/-- **C156.** `repeat_sequence(s, n)`, where the length of `s` divides `n`, has `n` entries, and entry `i` is entry `i % len(s)` of `s`.  A negative target
length and one that is no multiple raise `AssertionError`, an empty sequence raises `ZeroDivisionError`. -/
theorem C156_repeat_sequence {α : Type} (s : List α) (t : Int) :
    (t < 0 → repeatSequence s t = .error .assertion) ∧
    (0 ≤ t → s = [] → repeatSequence s t = .error .zeroDivision) ∧
    (0 ≤ t → s ≠ [] → ¬ (s.length : Int) ∣ t → repeatSequence s t = .error .assertion) ∧
    (0 ≤ t → s ≠ [] → (s.length : Int) ∣ t → ∃ r, repeatSequence s t = .ok r ∧ (r.length : Int) = t ∧
      ∀ i : Nat, (i : Int) < t → r[i]? = s[i % s.length]?) := by
  unfold repeatSequence
  refine ⟨fun h => if_pos h, fun h0 h => ?_, fun h0 h h2 => ?_, fun h0 h h2 => ?_⟩
  · rw [if_neg (by omega), if_pos (by simp [h])]
  all_goals
    obtain ⟨n, rfl⟩ := Int.eq_ofNat_of_zero_le h0
    have hp : 0 < s.length := List.length_pos_iff.2 h
    rw [if_neg (by omega), if_neg (by omega), Int.toNat_natCast]
    rw [Int.natCast_dvd_natCast] at h2
  · rw [if_pos (fun hc => h2 (Nat.dvd_of_mod_eq_zero hc))]
  · rw [if_neg (by simpa using Nat.mod_eq_zero_of_dvd h2)]
    refine ⟨_, rfl, ?_, fun i hi => ?_⟩
    · rw [List.length_flatten]
      simp only [List.map_replicate, List.sum_replicate, smul_eq_mul]
      rw [Nat.div_mul_cancel h2]
    · exact flatten_replicate_get _ _ _ (by rw [Nat.div_mul_cancel h2]; omega)

example : repeatSequence [7, 8, 9] 6 = .ok [7, 8, 9, 7, 8, 9] ∧ repeatSequence [7, 8, 9] 5 = .error .assertion := by decide
example : ([7, 8, 9] : List Nat) ≠ [] ∧ ((([7, 8, 9] : List Nat).length : Nat) : Int) ∣ 6 := by decide

/-! ## `sequence_to_entry_counts` -/

theorem count_take (s : List Nat) (i x : Nat) : (s.take i).count x = ((List.range i).filter fun j => s[j]? = some x).length := by
  induction i with
  | zero => simp
  | succ i ih =>
    rw [List.range_succ, List.filter_append, List.length_append, ← ih, List.take_add_one, List.count_append]
    cases h : s[i]? with
    | none => simp [h]
    | some y =>
      by_cases hy : y = x
      · simp [h, hy]
      · simp [h, hy]

/-- **C156.** `sequence_to_entry_counts` replaces each entry by the number of earlier entries that are equal to it. -/
theorem C156_entry_counts (s : List Nat) :
    (sequenceToEntryCounts s).length = s.length ∧
    (∀ i x : Nat, s[i]? = some x → (sequenceToEntryCounts s)[i]? = some ((List.range i).filter fun j => s[j]? = some x).length) ∧
    (∀ i j x c : Nat, s[i]? = some x → s[j]? = some x → (sequenceToEntryCounts s)[i]? = some c → (sequenceToEntryCounts s)[j]? = some c → i = j) := by
  have h0 : sequenceToEntryCounts s = (List.range s.length).map fun i => (s.take i).count (s.getD i 0) := by
    unfold sequenceToEntryCounts
    rw [entryCountsLoop_eq (p := []) (hd := by intro x; rfl)]
    simp
  have h1 : ∀ i x : Nat, s[i]? = some x → (sequenceToEntryCounts s)[i]? = some ((s.take i).count x) := by
    intro i x h
    have hi := getElem?_some_lt h
    rw [h0, List.getElem?_map, List.getElem?_range hi]
    simp [List.getD_eq_getElem?_getD, h]
  have mono : ∀ i j x : Nat, s[i]? = some x → i < j → (s.take i).count x < (s.take j).count x := by
    intro i j x h hij
    have : (s.take (i + 1)).count x ≤ (s.take j).count x := (List.take_sublist_take_left (by omega)).count_le _
    rw [List.take_add_one, List.count_append, h] at this
    simp at this
    omega
  refine ⟨by rw [h0]; simp, fun i x h => by rw [h1 i x h, count_take], ?_⟩
  intro i j x c hi hj ci cj
  rw [h1 i x hi] at ci
  rw [h1 j x hj] at cj
  simp only [Option.some.injEq] at ci cj
  rcases Nat.lt_trichotomy i j with h | h | h
  · have := mono i j x hi h; omega
  · exact h
  · have := mono j i x hj h; omega

example : sequenceToEntryCounts [5, 5, 7, 5, 7] = [0, 1, 0, 2, 1] := by decide

/-! ## `atom_indices_to_sequence` -/

/-- `m` is the greatest entry of the list -/
def Greatest (l : List Nat) (m : Nat) : Prop := m ∈ l ∧ ∀ x ∈ l, x ≤ m

/-- `r` has `n` entries; digit `k` of entry `i` is digit `l[k]` of `i`, and there are no other digits -/
def Gathers (l : List Nat) (n : Nat) (r : List Nat) : Prop :=
  r.length = n ∧ ∀ i < n, ∃ y, r[i]? = some y ∧ y < 2 ^ l.length ∧ ∀ k x, l[k]? = some x → y.testBit k = i.testBit x

theorem gathers_gather (l : List Nat) (n : Nat) : Gathers l n ((List.range n).map (gather l)) := by
  refine ⟨by simp, fun i hi => ⟨gather l i, by rw [List.getElem?_map, List.getElem?_range hi]; rfl, gather_lt _ _, fun k x h => ?_⟩⟩
  rw [testBit_gather, h]
  rfl

theorem ofNat_injective : Function.Injective Int.ofNat := fun a b h => by simpa using h

theorem sequence_start {l : List Nat} (hn : l.Nodup) {m : Nat} (hm : Greatest l m) (t : Option Int) :
    atomIndicesToSequence (l.map Int.ofNat) t = match t with
      | none => .ok ((List.range (2 ^ (m + 1))).map (gather l))
      | some t => repeatSequence ((List.range (2 ^ (m + 1))).map (gather l)) t := by
  have h0 : l ≠ [] := List.ne_nil_of_mem hm.1
  have hne : l.map Int.ofNat ≠ [] := by simpa using h0
  have hmax : maxInt (l.map Int.ofNat) = Int.ofNat m := by
    obtain ⟨x, hx, hx2⟩ := List.mem_map.1 (maxInt_mem hne)
    have h1 := le_maxInt (List.mem_map_of_mem hm.1 : Int.ofNat m ∈ l.map Int.ofNat)
    have h2 := hm.2 x hx
    rw [← hx2] at h1 ⊢
    simp only [Int.ofNat_eq_natCast] at h1 ⊢
    omega
  unfold atomIndicesToSequence
  rw [if_neg (by rw [List.dedup_eq_self.2 (hn.map ofNat_injective)]; simp), if_neg hne, hmax, if_neg (by simp only [Int.ofNat_eq_natCast]; omega)]
  have e1 : (Int.ofNat m + 1).toNat = m + 1 := by simp only [Int.ofNat_eq_natCast]; omega
  simp only [e1]
  have e2 : List.replicate (2 ^ (m + 1)) 0 = (List.range (2 ^ (m + 1))).map fun _ => 0 := by simp
  rw [e2, placesOf_eq]
  simp only [bind, Except.bind, pow_zero, one_mul, Nat.zero_add]
  cases t <;> rfl

/-- **C156.** `atom_indices_to_sequence` for different natural numbers with the greatest one `m`: the result has `2**(m+1)` entries, or as many as the
target length says; digit `k` of entry `i` is digit `exposet[k]` of `i`. -/
theorem C156_atom_indices (l : List Nat) (hn : l.Nodup) (m : Nat) (hm : Greatest l m) :
    (∃ r, atomIndicesToSequence (l.map Int.ofNat) none = .ok r ∧ Gathers l (2 ^ (m + 1)) r) ∧
    (∀ n : Nat, 2 ^ (m + 1) ∣ n → ∃ r, atomIndicesToSequence (l.map Int.ofNat) (some (n : Int)) = .ok r ∧ Gathers l n r) ∧
    (∀ t : Int, t < 0 ∨ ¬ (2 ^ (m + 1) : Int) ∣ t → atomIndicesToSequence (l.map Int.ofNat) (some t) = .error .assertion) := by
  have hlen : ((List.range (2 ^ (m + 1))).map (gather l)).length = 2 ^ (m + 1) := by simp
  have hne : (List.range (2 ^ (m + 1))).map (gather l) ≠ [] := by
    intro h; rw [h] at hlen; have := Nat.two_pow_pos (m + 1); rw [List.length_nil] at hlen; omega
  refine ⟨⟨_, sequence_start hn hm none, gathers_gather _ _⟩, fun n hd => ?_, fun t ht => ?_⟩
  · rw [sequence_start hn hm]
    obtain ⟨-, -, -, h⟩ := C156_repeat_sequence ((List.range (2 ^ (m + 1))).map (gather l)) (n : Int)
    obtain ⟨r, h1, h2, h3⟩ := h (by omega) hne (by rw [hlen]; exact_mod_cast hd)
    refine ⟨r, h1, ?_⟩
    have : r = (List.range n).map (gather l) := by
      apply List.ext_getElem?
      intro i
      by_cases hi : i < n
      · rw [h3 i (by omega), hlen, List.getElem?_map, List.getElem?_map, List.getElem?_range hi, List.getElem?_range (Nat.mod_lt _ (Nat.two_pow_pos _))]
        simp only [Option.map_some]
        rw [gather_mod (fun x hx => by have := hm.2 x hx; omega)]
      · rw [List.getElem?_eq_none (by omega), List.getElem?_eq_none (by simp; omega)]
    rw [this]
    exact gathers_gather _ _
  · rw [sequence_start hn hm]
    obtain ⟨h1, -, h3, -⟩ := C156_repeat_sequence ((List.range (2 ^ (m + 1))).map (gather l)) t
    by_cases h0 : t < 0
    · exact h1 h0
    · exact h3 (by omega) hne (by rw [hlen]; push_cast; exact ht.resolve_left h0)

example : [2, 0].Nodup ∧ Greatest [2, 0] 2 := by simp [Greatest]
example : (List.range 8).map (gather [2, 0]) = [0, 2, 0, 2, 1, 3, 1, 3] := by decide

/-- **C156.** `atom_indices_to_sequence` raises `AssertionError` for a repeated number, `ValueError` for no numbers, and for a negative number among
different ones `AssertionError`, except that `TypeError` is raised if all of them are below -1. -/
theorem C156_atom_indices_errors (l : List Int) (t : Option Int) :
    (¬ l.Nodup → atomIndicesToSequence l t = .error .assertion) ∧
    (l = [] → atomIndicesToSequence l t = .error .valueError) ∧
    (l.Nodup → (∃ x ∈ l, x < 0) → (∃ x ∈ l, -1 ≤ x) → atomIndicesToSequence l t = .error .assertion) ∧
    (l.Nodup → l ≠ [] → (∀ x ∈ l, x < -1) → atomIndicesToSequence l t = .error .typeError) := by
  unfold atomIndicesToSequence
  refine ⟨fun h => ?_, fun h => ?_, fun h h2 h3 => ?_, fun h h2 h3 => ?_⟩
  · rw [if_pos]
    intro hc
    exact h (List.dedup_eq_self.1 ((List.dedup_sublist l).eq_of_length hc))
  · subst h; rfl
  · obtain ⟨x, hx, hx2⟩ := h3
    have := le_maxInt hx
    rw [if_neg (by rw [List.dedup_eq_self.2 h]; simp), if_neg (List.ne_nil_of_mem hx), if_neg (by omega)]
    dsimp only
    obtain ⟨z, hz, hz2⟩ := h2
    obtain ⟨i, hi⟩ := List.mem_iff_getElem?.1 hz
    rw [placesOf_negative _ ⟨(z, i), by rw [List.mem_zipIdx_iff_getElem?]; exact hi, hz2⟩]
    rfl
  · have := h3 _ (maxInt_mem h2)
    rw [if_neg (by rw [List.dedup_eq_self.2 h]; simp), if_neg h2, if_pos (by omega)]

example : ([3, -1] : List Int).Nodup ∧ (∃ x ∈ ([3, -1] : List Int), x < 0) ∧ (∃ x ∈ ([3, -1] : List Int), -1 ≤ x) := by decide

/-! ## `arity_to_walsh_matrix` -/

/-- **C156.** `arity_to_walsh_matrix(n, negate)` is a square matrix with `2**n` rows; entry `(i, j)` is the parity of the number of digits 1 that `i` and `j`
have in common, complemented for `negate`.  It is symmetric.  A negative arity raises `AssertionError`. -/
theorem C156_walsh_matrix (n : Nat) (negate : Bool) :
    (∃ m, arityToWalshMatrixArgs n negate = .ok m ∧ m.length = 2 ^ n ∧ (∀ row ∈ m, row.length = 2 ^ n) ∧
      ∀ i < 2 ^ n, ∀ j < 2 ^ n, ∃ row x, m[i]? = some row ∧ row[j]? = some x ∧
        x = ((List.range n).countP (fun k => i.testBit k && j.testBit k) + if negate then 1 else 0) % 2 ∧
        ∃ row' , m[j]? = some row' ∧ row'[i]? = some x) ∧
    (∀ z : Int, z < 0 → arityToWalshMatrixArgs z negate = .error .assertion) ∧
    arityToWalshMatrixArgs n false = arityToWalshMatrix n := by
  have key : arityToWalshMatrixArgs n negate = .ok ((List.range (2 ^ n)).map fun i => (List.range (2 ^ n)).map fun j =>
      ((List.range n).countP (fun k => i.testBit k && j.testBit k) + if negate then 1 else 0) % 2) := by
    unfold arityToWalshMatrixArgs
    rw [if_neg (by omega)]
    rcases Nat.eq_zero_or_pos n with rfl | hn
    · rw [if_pos (by rfl)]; cases negate <;> rfl
    · rw [if_neg (by omega)]
      simp only [Int.toNat_natCast]
      rw [makeAtompatterns_eq hn]
      simp only [bind, Except.bind, pure, Except.pure, shl_eq]
      apply mapM_ok
      intro i hi
      have hi := List.mem_range.1 hi
      have hw : ((i : Nat) : Int) < 2 ^ n := by exact_mod_cast hi
      rw [makeLinearBinv_eq _ n hn rfl (Or.inr rfl), linCoords_walsh, if_pos (by cases negate <;> simp)]
      simp only
      rw [if_pos hw]
      simp only [linB, List.map_map]
      congr 1
      apply List.map_congr_left
      intro j _
      simp only [Function.comp]
      rw [bsum_count]
      have e : ∀ k, wbit (i : Int) k = i.testBit k := fun k => wbit_nat i k
      simp only [e]
      have h2 := Nat.mod_two_eq_zero_or_one ((List.range n).countP fun k => i.testBit k && j.testBit k)
      rcases h2 with h2 | h2 <;> cases negate <;> simp [h2, Nat.add_mod]
  refine ⟨⟨_, key, by simp, ?_, ?_⟩, fun z hz => by unfold arityToWalshMatrixArgs; rw [if_pos hz], ?_⟩
  · intro row hr
    obtain ⟨i, _, rfl⟩ := List.mem_map.1 hr
    simp
  · intro i hi j hj
    refine ⟨_, _, by rw [List.getElem?_map, List.getElem?_range hi]; rfl, by rw [List.getElem?_map, List.getElem?_range hj]; rfl, rfl,
      _, by rw [List.getElem?_map, List.getElem?_range hj]; rfl, ?_⟩
    rw [List.getElem?_map, List.getElem?_range hi]
    simp only [Option.map_some, Bool.and_comm]
  · unfold arityToWalshMatrixArgs arityToWalshMatrix
    rw [if_neg (by omega)]
    rcases Nat.eq_zero_or_pos n with rfl | hn
    · rfl
    · rw [if_neg (by omega), if_neg (by omega)]
      simp

example : arityToWalshMatrixArgs 2 true = .ok [[1, 1, 1, 1], [1, 0, 1, 0], [1, 1, 0, 0], [1, 0, 0, 1]] := by decide +kernel

/-! ## `int_to_sierpinski_row` -/

theorem sierpinskiEntry_sum (W : List Nat) (bs : List Bool) :
    sierpinskiEntry (W.map (1 <<< ·)) bs = ((W.zip bs).map fun p => if p.2 then 2 ^ p.1 else 0).sum := by
  unfold sierpinskiEntry
  have h : ∀ (l : List (Nat × Bool)) (a : Nat), l.foldl (fun r p => r + p.1) a = a + (l.map Prod.fst).sum := by
    intro l
    induction l with
    | nil => simp
    | cons p l ih => intro a; rw [List.foldl_cons, ih]; simp [Nat.add_assoc]
  rw [h, Nat.zero_add]
  induction W generalizing bs with
  | nil => simp
  | cons w W ih =>
    cases bs with
    | nil => simp
    | cons b bs =>
      have := ih bs
      cases b <;> simp_all [Nat.shiftLeft_eq]

/-- **C156.** `int_to_sierpinski_row(exposet=l)` for natural numbers: `2**len(l)` entries; entry `i` is the sum of `2**l[k]` for the digits `k` of `i`.  If the
numbers are different, the entries are different, and those are the numbers whose digits are in the list. -/
theorem C156_sierpinski_exposet (order : List Nat → List Nat) (l : List Nat) :
    ∃ r, intToSierpinskiRowArgs order none (some (l.map Int.ofNat)) = .ok r ∧ r.length = 2 ^ l.length ∧
      (∀ i < 2 ^ l.length, r[i]? = some ((l.zipIdx.map fun p => if i.testBit p.2 then 2 ^ p.1 else 0).sum)) ∧
      (l.Nodup → r.Nodup ∧ ∀ x, x ∈ r ↔ ∀ p, x.testBit p = true → p ∈ l) := by
  obtain ⟨r, hr⟩ : ∃ r, r = (List.range (2 ^ l.length)).map (rowEntry l) := ⟨_, rfl⟩
  refine ⟨r, ?_, by rw [hr]; simp, fun i hi => ?_, fun hn => ⟨?_, fun x => ?_⟩⟩
  · unfold intToSierpinskiRowArgs
    simp only
    by_cases h : l = []
    · subst h; rw [hr]; rfl
    · rw [if_neg (by simpa using h), if_neg (by simp), List.map_map, show (Int.toNat ∘ Int.ofNat) = id from rfl, List.map_id, sierpinskiRow_eq, hr]
  · rw [hr, List.getElem?_map, List.getElem?_range hi]
    simp only [Option.map_some, Option.some.injEq]
    unfold rowEntry
    rw [sierpinskiEntry_sum]
    congr 1
    apply List.ext_getElem?
    intro k
    simp only [List.getElem?_map, List.zip, List.getElem?_zipWith, List.getElem?_zipIdx]
    by_cases hk : k < l.length
    · simp [hk]
    · simp [List.getElem?_eq_none (by omega : l.length ≤ k)]
  · rw [hr, List.nodup_map_iff_inj_on List.nodup_range]
    intro x hx y hy h
    exact rowEntry_inj hn (List.mem_range.1 hx) (List.mem_range.1 hy) h
  · rw [hr, List.mem_map]
    constructor
    · rintro ⟨i, _, rfl⟩ p hp
      obtain ⟨k, h1, _⟩ := (testBit_rowEntry hn i p).1 hp
      exact List.mem_of_getElem? h1
    · intro h
      refine ⟨gather l x, List.mem_range.2 (gather_lt _ _), ?_⟩
      apply Nat.eq_of_testBit_eq
      intro p
      rw [Bool.eq_iff_iff, testBit_rowEntry hn]
      constructor
      · rintro ⟨k, h1, h2⟩
        rw [testBit_gather, h1] at h2
        simpa using h2
      · intro hp
        obtain ⟨k, hk⟩ := List.mem_iff_getElem?.1 (h p hp)
        exact ⟨k, hk, by rw [testBit_gather, hk]; simpa using hp⟩

example : intToSierpinskiRowArgs id none (some [0, 3]) = .ok [0, 1, 8, 9] ∧ intToSierpinskiRowArgs id none (some [3, 0]) = .ok [0, 8, 1, 9] := by decide +kernel

/-- **C156.** `int_to_sierpinski_row(n)` for a natural number, in whatever order python iterates over a set: as many entries as there are sets of digits 1 of
`n`, all different, namely the numbers all of whose digits 1 are digits 1 of `n`; the first one is 0 and the last one is `n`. -/
theorem C156_sierpinski_intval (order : List Nat → List Nat) (ho : ∀ l, (order l).Perm l) (n : Nat) :
    ∃ r, intToSierpinskiRowArgs order (some n) none = .ok r ∧ r.length = 2 ^ (intToExposet n).length ∧ r.Nodup ∧
      (∀ x, x ∈ r ↔ ∀ p, x.testBit p = true → n.testBit p = true) ∧ r[0]? = some 0 ∧ r.getLast? = some n := by
  obtain ⟨W, hW⟩ : ∃ W, W = order (intToExposet n) := ⟨_, rfl⟩
  have hnd : (intToExposet n).Nodup := (C19_exposet_sorted n).imp (fun h => Nat.ne_of_lt h)
  have hp : W.Perm (intToExposet n) := hW ▸ ho _
  have hn : W.Nodup := hp.nodup_iff.2 hnd
  have hmem : ∀ p, p ∈ W ↔ n.testBit p = true := fun p => by rw [hp.mem_iff, C19_exposet_of_int]
  have key : intToSierpinskiRowArgs order (some n) none = .ok ((List.range (2 ^ W.length)).map (rowEntry W)) := by
    unfold intToSierpinskiRowArgs intToSierpinskiRow
    simp only [Int.toNat_natCast]
    rw [if_neg (by omega)]
    by_cases h0 : n = 0
    · subst h0
      rw [if_pos rfl]
      have : W = [] := List.eq_nil_iff_forall_not_mem.2 fun p hp => by simpa using (hmem p).1 hp
      rw [this]
      rfl
    · rw [if_neg h0]
      obtain ⟨b, b1, b2, _⟩ := C26_intval_only n
      rw [b1]
      simp only [bind, Except.bind]
      have : b.exposet = intToExposet n := by
        apply eq_of_mem_iff_of_lt (exposet_pairwise b) (C19_exposet_sorted _)
        intro x
        rw [C19_exposet_of_int, ← b2, ← (C26_attributes b).2.2.2.1 x]
        unfold Binv.hasIndex
        rw [List.contains_iff_mem]
      rw [this, ← hW, sierpinskiRow_eq]
  obtain ⟨r, h1, h2, h3, h4⟩ := C156_sierpinski_exposet order W
  have hr : r = (List.range (2 ^ W.length)).map (rowEntry W) := by
    have h5 : intToSierpinskiRowArgs order none (some (W.map Int.ofNat)) = sierpinskiRow W := by
      unfold intToSierpinskiRowArgs
      simp only
      by_cases h : W = []
      · rw [h]; rfl
      · rw [if_neg (by simpa using h), if_neg (by simp), List.map_map, show (Int.toNat ∘ Int.ofNat) = id from rfl, List.map_id]
    rw [h5, sierpinskiRow_eq] at h1
    exact (Except.ok.inj h1).symm
  have h2p := Nat.two_pow_pos W.length
  refine ⟨r, by rw [key, hr], by rw [h2, hp.length_eq], (h4 hn).1, fun x => ?_, ?_, ?_⟩
  · rw [(h4 hn).2]
    simp only [hmem]
  · rw [hr, List.getElem?_map, List.getElem?_range h2p]
    simp only [Option.map_some, Option.some.injEq]
    apply Nat.eq_of_testBit_eq
    intro p
    rw [Bool.eq_iff_iff, testBit_rowEntry hn]
    simp
  · rw [List.getLast?_eq_getElem?, h2, hr, List.getElem?_map, List.getElem?_range (by omega)]
    simp only [Option.map_some, Option.some.injEq]
    apply Nat.eq_of_testBit_eq
    intro p
    rw [Bool.eq_iff_iff, testBit_rowEntry hn, ← hmem]
    constructor
    · rintro ⟨k, hk, _⟩
      exact List.mem_of_getElem? hk
    · intro h
      obtain ⟨k, hk⟩ := List.mem_iff_getElem?.1 h
      exact ⟨k, hk, by rw [Nat.testBit_two_pow_sub_one]; simpa using getElem?_some_lt hk⟩

example : ∀ l : List Nat, l.reverse.Perm l := fun l => l.reverse_perm
example : intToSierpinskiRowArgs List.reverse (some 9) none = .ok [0, 8, 1, 9] := by decide +kernel

/-- **C156.** `int_to_sierpinski_row` without or with both arguments raises `ArgComboError`, a negative number raises `NotNaturalError`, and a negative entry
of `exposet` raises `ValueError`. -/
theorem C156_sierpinski_errors (order : List Nat → List Nat) :
    intToSierpinskiRowArgs order none none = .error .argCombo ∧
    (∀ z l, intToSierpinskiRowArgs order (some z) (some l) = .error .argCombo) ∧
    (∀ z, z < 0 → intToSierpinskiRowArgs order (some z) none = .error .notNatural) ∧
    (∀ l : List Int, (∃ x ∈ l, x < 0) → intToSierpinskiRowArgs order none (some l) = .error .valueError) := by
  refine ⟨rfl, fun _ _ => rfl, fun z hz => if_pos hz, fun l ⟨x, hx, hx2⟩ => ?_⟩
  unfold intToSierpinskiRowArgs
  simp only
  rw [if_neg (List.ne_nil_of_mem hx), if_pos (by rw [List.any_eq_true]; exact ⟨x, hx, by simpa using hx2⟩)]

/-! ## `balanced_ternary_vector_to_string` -/

/-- **C156.** `balanced_ternary_vector_to_string` gives a sign for each entry, so different vectors with entries -1, 0 and 1 have different strings; any
other entry raises `KeyError`. -/
theorem C156_ternary_string (v : List Int) :
    ((∀ x ∈ v, x = -1 ∨ x = 0 ∨ x = 1) → ∃ s, balancedTernaryVectorToString v = .ok s ∧ s.length = v.length ∧
      (∀ i : Nat, (s[i]? = some '−' ↔ v[i]? = some (-1)) ∧ (s[i]? = some '0' ↔ v[i]? = some 0) ∧ (s[i]? = some '+' ↔ v[i]? = some 1)) ∧
      ∀ v', balancedTernaryVectorToString v' = .ok s → v' = v) ∧
    ((∃ x ∈ v, x ≠ -1 ∧ x ≠ 0 ∧ x ≠ 1) → balancedTernaryVectorToString v = .error .keyError) := by
  obtain ⟨g, hg⟩ : ∃ g : Int → Char, g = fun x => if x = -1 then '−' else if x = 0 then '0' else '+' := ⟨_, rfl⟩
  have hok : ∀ v : List Int, (∀ x ∈ v, x = -1 ∨ x = 0 ∨ x = 1) → balancedTernaryVectorToString v = .ok (v.map g) := by
    intro v hv
    apply mapM_ok
    intro x hx
    rcases hv x hx with rfl | rfl | rfl <;> rw [hg] <;> rfl
  have herr : ∀ v : List Int, (∃ x ∈ v, x ≠ -1 ∧ x ≠ 0 ∧ x ≠ 1) → balancedTernaryVectorToString v = .error .keyError := by
    rintro v ⟨x, hx, h1, h2, h3⟩
    apply P.mapM_error
    · intro y _
      split_ifs <;> simp
    · exact ⟨x, hx, by rw [if_neg h1, if_neg h2, if_neg h3]⟩
  refine ⟨fun h => ⟨v.map g, hok v h, by simp, fun i => ?_, fun v' hv' => ?_⟩, herr v⟩
  · rw [List.getElem?_map]
    cases hi : v[i]? with
    | none => simp
    | some x => rcases h x (List.mem_of_getElem? hi) with rfl | rfl | rfl <;> rw [hg] <;> simp
  · by_cases h' : ∀ x ∈ v', x = -1 ∨ x = 0 ∨ x = 1
    · rw [hok v' h'] at hv'
      have e := Except.ok.inj hv'
      have hlen : v'.length = v.length := by simpa using congrArg List.length e
      apply List.ext_getElem hlen
      intro i hi hi2
      have e2 : g v'[i] = g v[i] := by
        have := congrArg (fun l => l[i]?) e
        simpa [hi, hi2] using this
      rcases h' _ (List.getElem_mem hi) with a | a | a <;> rcases h _ (List.getElem_mem hi2) with b | b | b <;> rw [a, b] at e2 ⊢ <;>
        rw [hg] at e2 <;> exact absurd e2 (by decide)
    · push Not at h'
      rw [herr v' h'] at hv'
      cases hv'

example : balancedTernaryVectorToString [1, 0, -1] = .ok ['+', '0', '−'] ∧ balancedTernaryVectorToString [1, 2] = .error .keyError := by decide

/-! ## `matrix_to_vector` and `vector_to_matrix` -/

/-- **C156.** `matrix_to_vector` of a square matrix with entries 0 and 1: digit `i` of number `k` is entry `i` of column `k`, or of row `k` with `by_row`. -/
theorem C156_matrix_to_vector (N : Nat) (g : Nat → Nat → Int) (hg : ∀ i < N, ∀ j < N, g i j = 0 ∨ g i j = 1) (byRow : Bool) :
    ∃ v, matrixToVector ⟨N, N, g⟩ byRow = .ok v ∧ v.length = N ∧
      ∀ k < N, ∃ x, v[k]? = some x ∧ x < 2 ^ N ∧ ∀ i < N, (x.testBit i = true ↔ (if byRow then g k i else g i k) = 1) := by
  rw [matrixToVector_spec hg]
  refine ⟨_, rfl, by simp, fun k hk => ⟨_, by rw [List.getElem?_map, List.getElem?_range hk]; rfl, ?_, fun i hi => ?_⟩⟩
  · dsimp only
    rw [act_two_pow _ hk]
    exact valB_range_lt _ _
  · dsimp only
    rw [act_two_pow _ hk, testBit_valB_range]
    cases byRow
    · simp [matB, hi, hk]
    · simp [matB, W.tr, hi, hk]

example : ∀ i < 2, ∀ j < 2, (if i = j then (1 : Int) else 0) = 0 ∨ (if i = j then (1 : Int) else 0) = 1 := by decide

/-- **C156.** `vector_to_matrix` of `N` natural numbers below `2**N`: entry `(i, k)` of the square matrix is digit `i` of number `k`, and `matrix_to_vector`
gives the numbers back.  `[]` and `[1]` raise `IsNeutralFail`. -/
theorem C156_vector_to_matrix (l : List Nat) (hl : ∀ x ∈ l, x < 2 ^ l.length) :
    (l ≠ [] → l ≠ [1] → ∃ m, vectorToMatrix (l.map Int.ofNat) = .ok (some m) ∧ m.rows = l.length ∧ m.cols = l.length ∧
      (∀ k x, l[k]? = some x → ∀ i < l.length, m.get i k = if x.testBit i then 1 else 0) ∧
      matrixToVector m = .ok l) ∧
    ((l = [] ∨ l = [1]) → vectorToMatrix (l.map Int.ofNat) = .ok none) := by
  refine ⟨fun h1 h2 => ?_, ?_⟩
  · refine ⟨_, vectorToMatrix_spec hl h1 h2, rfl, rfl, fun k x hk i hi => ?_, ?_⟩
    · have hk2 := getElem?_some_lt hk
      simp only [hi, hk2, and_self, if_true, colB, hk]
      cases x.testBit i <;> rfl
    · rw [matrixToVector_spec (by
        intro i hi j hj
        simp only [hi, hj, and_self, if_true]
        cases colB l i j <;> simp)]
      congr 1
      apply List.ext_getElem?
      intro k
      by_cases hk : k < l.length
      · rw [List.getElem?_map, List.getElem?_range hk, List.getElem?_eq_getElem hk]
        simp only [Option.map_some, Option.some.injEq, Bool.false_eq_true, if_false]
        rw [act_two_pow _ hk]
        apply Nat.eq_of_testBit_eq
        intro i
        rw [testBit_valB_range]
        by_cases hi : i < l.length
        · simp [matB, hi, hk, colB]
        · rw [decide_eq_false hi, Bool.false_and]
          symm
          apply testBit_of_lt (hl _ (List.getElem_mem hk)) (by omega)
      · rw [List.getElem?_eq_none (by simp; omega), List.getElem?_eq_none (by omega)]
  · rintro (h | h) <;> subst h <;> rfl

example : ∀ x ∈ [1, 3], x < 2 ^ [1, 3].length := by decide

/-! ## `intval_to_arity` -/

/-- **C156.** `intval_to_arity(x)` of a natural number is the least arity whose truth tables reach the number `x`; a negative number raises
`ArgValueError`. -/
theorem C156_intval_to_arity (x : Int) :
    (x < 0 → intvalToArity x = .error .argValue) ∧
    (0 ≤ x → ∃ n, intvalToArity x = .ok n ∧ x < 2 ^ 2 ^ n ∧ ∀ m : Nat, x < 2 ^ 2 ^ m → n ≤ m) := by
  refine ⟨fun h => by unfold intvalToArity; rw [if_neg (by omega)], fun h => ?_⟩
  obtain ⟨z, rfl⟩ := Int.eq_ofNat_of_zero_le h
  obtain ⟨n, h1, h2, h3⟩ := intvalToArity_spec z
  exact ⟨n, h1, by exact_mod_cast h2, fun m hm => h3 m (by exact_mod_cast hm)⟩

/-- **C156.** `intval_to_tt_length(x)` is the least length `2**n` of a vector whose number can be `x`. -/
theorem C156_intval_to_tt_length (x : Int) :
    (x < 0 → intvalToTtLength x = .error .argValue) ∧
    (0 ≤ x → ∃ n : Nat, intvalToTtLength x = .ok (2 ^ n) ∧ x < 2 ^ 2 ^ n ∧ ∀ m : Nat, x < 2 ^ 2 ^ m → 2 ^ n ≤ 2 ^ m) := by
  refine ⟨fun h => by unfold intvalToTtLength; rw [(C156_intval_to_arity x).1 h]; rfl, fun h => ?_⟩
  obtain ⟨n, h1, h2, h3⟩ := (C156_intval_to_arity x).2 h
  refine ⟨n, ?_, h2, fun m hm => Nat.pow_le_pow_right (by omega) (h3 m hm)⟩
  unfold intvalToTtLength
  rw [h1]
  simp only [bind, Except.bind, pure, Except.pure, shl_eq]

example : intvalToArity 65535 = .ok 4 ∧ intvalToArity 65536 = .ok 5 := by decide +kernel

end Verif.BF
