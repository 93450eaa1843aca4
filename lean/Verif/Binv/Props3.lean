import Verif.Binv.Basic
import Verif.Binv.Props2

/-! # Property C57: reverse, flip_bit, +, changes and pretty of `Binv` -/

namespace Verif.BV
open Verif.Py

/-- **C57.** `reverse` reads the digits backwards and is an involution. -/
theorem C57_reverse (b : Binv) :
    ∃ r, b.rev = .ok r ∧ r.length = b.length ∧ r.rev = .ok b ∧
      ∀ i < b.length, (i ∈ r.exposet ↔ b.length - 1 - i ∈ b.exposet) := by
  refine ⟨⟨b.vector.reverse⟩, ofBools_eq _, by simp [Binv.length], ?_, ?_⟩
  · unfold Binv.rev; rw [ofBools_eq]; simp
  · intro i hi
    unfold Binv.length at hi ⊢
    rw [mem_exposet, mem_exposet]
    simp only
    rw [List.getElem?_reverse hi]

example : (⟨[false, false, true]⟩ : Binv).rev = .ok ⟨[true, false, false]⟩ := by decide

/-- **C57.** `flip_bit(p)` changes exactly digit `p`; negative positions count from the end; other positions are
rejected. -/
theorem C57_flip_bit (b : Binv) (p : Nat) (hp : p < b.length) :
    (∃ r, b.flipBit p = .ok r ∧ r.length = b.length ∧ (∀ i, i ∈ r.exposet ↔ (i = p ∧ p ∉ b.exposet) ∨ (i ≠ p ∧ i ∈ b.exposet)) ∧
      r.intval = b.intval ^^^ 2 ^ p ∧ r.flipBit p = .ok b) ∧
    b.flipBit ((p : Int) - b.length) = b.flipBit p := by
  have e : ∀ b : Binv, p < b.length → b.flipBit p = .ok ⟨b.vector.modify p (!·)⟩ := by
    intro b hp
    unfold Binv.flipBit
    rw [if_pos (by omega)]
    simp only [Int.natCast_nonneg, if_true, Int.toNat_natCast]
    exact ofBools_eq _
  have hb : p < b.vector.length := hp
  refine ⟨⟨_, e b hp, by simp [Binv.length], ?_, ?_, ?_⟩, ?_⟩
  · intro i
    rw [mem_exposet, mem_exposet, mem_exposet]
    simp only [List.getElem?_modify]
    by_cases hi : p = i
    · subst hi
      rw [List.getElem?_eq_getElem hb]
      cases b.vector[p] <;> simp
    · have := Ne.symm hi
      simp [hi, this]
  · rw [intval_eq, intval_eq]
    apply Nat.eq_of_testBit_eq
    intro i
    rw [Nat.testBit_xor, testBit_valB, testBit_valB, Nat.testBit_two_pow]
    simp only [List.getD_eq_getElem?_getD, List.getElem?_modify]
    by_cases hi : p = i
    · subst hi
      rw [List.getElem?_eq_getElem hb]
      simp
    · simp [hi]
  · rw [e _ (by simpa [Binv.length] using hb)]
    refine congrArg Except.ok (ext_getElem? ?_)
    intro i
    simp only [List.getElem?_modify]
    by_cases hi : p = i
    · subst hi; simp [Option.map_map, Function.comp_def]
    · simp [hi]
  · rw [e b hp]
    unfold Binv.flipBit
    have h1 : ¬ (0 ≤ (p : Int) - b.length) := by omega
    have h2 : (p : Int) - b.length + b.length = p := by omega
    simp only [h1, if_false, h2, Int.natCast_nonneg, if_true, Int.toNat_natCast]
    rw [if_pos (by omega), ofBools_eq]

/-- **C57.** Positions outside the vector are rejected. -/
theorem C57_flip_bit_error (b : Binv) (p : Int) :
    ((b.length : Int) ≤ p → b.flipBit p = .error .assertion) ∧
    (p < -(b.length : Int) → b.flipBit p = .error .indexError) := by
  unfold Binv.flipBit
  constructor
  · intro h; rw [if_neg (by omega)]
  · intro h
    have h1 : ¬ (0 ≤ p) := by omega
    have h2 : ¬ (0 ≤ p + b.length) := by omega
    simp only [h1, if_false, h2]
    rw [if_pos (by omega)]

example : (⟨[false, false, false, true]⟩ : Binv).flipBit 1 = .ok ⟨[false, true, false, true]⟩ := by decide

/-- **C57.** `+` is concatenation: the second vector supplies the higher digits. -/
theorem C57_add (b c : Binv) :
    ∃ r, b.add c = .ok r ∧ r.length = b.length + c.length ∧ r.intval = b.intval + 2 ^ b.length * c.intval := by
  refine ⟨_, ofBools_eq _, by simp [Binv.length], ?_⟩
  rw [intval_eq, intval_eq, intval_eq]; exact valB_append _ _

example : (⟨[false, true]⟩ : Binv).add ⟨[true]⟩ = .ok ⟨[false, true, true]⟩ := by decide

theorem changes_eq (b : Binv) :
    b.changes = (List.range (b.length - 1)).countP (fun i => b.vector[i]? ≠ b.vector[i + 1]?) := by
  unfold Binv.changes
  split
  · have : b.length - 1 = 0 := by omega
    rw [this]; rfl
  · have h : ∀ (l : List Nat) (r : Nat), (l.map (1 + ·)).foldl
        (fun r i => if b.vector[i - 1]? ≠ b.vector[i]? then r + 1 else r) r =
        r + l.countP (fun i => b.vector[i]? ≠ b.vector[i + 1]?) := by
      intro l
      induction l with
      | nil => simp
      | cons a l ih =>
        intro r
        rw [List.map_cons, List.foldl_cons, ih, List.countP_cons]
        have e1 : 1 + a - 1 = a := by omega
        have e2 : 1 + a = a + 1 := by omega
        rw [e1, e2]
        by_cases hx : b.vector[a]? = b.vector[a + 1]?
        · simp [hx]
        · simp [hx]; omega
    have h2 := h (List.range (b.length - 1)) 0
    rw [List.range'_eq_map_range]
    rw [h2]; simp

/-- **C57.** `changes` is the number of places where neighbouring digits differ, and is the same for the complement
and for the reverse. -/
theorem C57_changes (b : Binv) :
    b.changes = ((List.range (b.length - 1)).filter (fun i => decide (i ∈ b.exposet) != decide (i + 1 ∈ b.exposet))).length ∧
    (∀ r, b.complement = .ok r → r.changes = b.changes) ∧ (∀ r, b.rev = .ok r → r.changes = b.changes) := by
  refine ⟨?_, ?_, ?_⟩
  · rw [changes_eq, List.countP_eq_length_filter]
    congr 1
    apply List.filter_congr
    intro i hi
    rw [List.mem_range] at hi
    unfold Binv.length at hi
    have h1 : i < b.vector.length := by omega
    have h2 : i + 1 < b.vector.length := by omega
    simp only [mem_exposet, List.getElem?_eq_getElem h1, List.getElem?_eq_getElem h2]
    cases b.vector[i] <;> cases b.vector[i + 1] <;> rfl
  · intro r hr
    rw [complement_eq] at hr
    cases hr
    rw [changes_eq, changes_eq]
    have : (⟨b.vector.map (!·)⟩ : Binv).length = b.length := by simp [Binv.length]
    rw [this]
    apply List.countP_congr
    intro i _
    simp only [List.getElem?_map, decide_eq_true_eq]
    constructor
    · intro h h2; exact h (by rw [h2])
    · intro h h2
      apply h
      exact Option.map_injective (by intro x y h; cases x <;> cases y <;> simp_all) h2
  · intro r hr
    unfold Binv.rev at hr
    rw [ofBools_eq] at hr
    cases hr
    rw [changes_eq, changes_eq]
    have : (⟨b.vector.reverse⟩ : Binv).length = b.length := by simp [Binv.length]
    rw [this]
    have hperm : (List.range (b.length - 1)).countP (fun i => b.vector[i]? ≠ b.vector[i + 1]?) =
        ((List.range (b.length - 1)).reverse).countP (fun i => b.vector[i]? ≠ b.vector[i + 1]?) :=
      (List.countP_reverse).symm
    rw [hperm]
    have hrev : (List.range (b.length - 1)).reverse = (List.range (b.length - 1)).map (fun i => b.length - 1 - 1 - i) := by
      apply List.ext_getElem (by simp)
      intro i h1 h2
      simp
    rw [hrev, List.countP_map]
    apply List.countP_congr
    intro i hi
    rw [List.mem_range] at hi
    unfold Binv.length at *
    simp only [Function.comp, decide_eq_true_eq]
    rw [List.getElem?_reverse (by omega), List.getElem?_reverse (by omega)]
    have e1 : b.vector.length - 1 - (i + 1) = b.vector.length - 1 - 1 - i := by omega
    have e2 : b.vector.length - 1 - i = b.vector.length - 1 - 1 - i + 1 := by omega
    rw [e1, e2]
    exact ⟨fun h => Ne.symm h, fun h => Ne.symm h⟩

example : (⟨[false, false, true, true, false, false, true]⟩ : Binv).changes = 3 := by decide

theorem prettyLoop_filter (n i : Nat) (v : List Bool) :
    (prettyLoop n i v).filter (· ≠ ' ') = v.map (fun b => if b then '1' else '0') := by
  induction v generalizing i with
  | nil => rfl
  | cons d v ih =>
    have hsp : ∀ p : Prop, ∀ [Decidable p], ∀ q : Prop, ∀ [Decidable q], ∀ r : Prop, ∀ [Decidable r],
        (if p then (if q then (if r then [' ', ' '] else [' ']) else []) else []).filter (· ≠ ' ') = [] := by
      intro p _ q _ r _
      split <;> (try split) <;> (try split) <;> rfl
    rw [prettyLoop, List.filter_cons, List.filter_append, hsp, ih]
    cases d <;> rfl

/-- Number of characters before digit `i`: the digits, one space per 4 digits, one more per 16. -/
def prettyPos (i : Nat) : Nat := i + i / 4 + i / 16

theorem prettyLoop_get (n i : Nat) (v : List Bool) (hn : i + v.length = n) (k : Nat) (hk : k < v.length) :
    (prettyLoop n i v)[prettyPos (i + k) - prettyPos i]? = v[k]?.map (fun b => if b then '1' else '0') := by
  induction v generalizing i k with
  | nil => simp at hk
  | cons d v ih =>
    cases k with
    | zero => simp [prettyLoop]
    | succ k =>
      have hk' : k < v.length := by simpa using hk
      have hn' : i + 1 + v.length = n := by simp only [List.length_cons] at hn; omega
      have hne : i + 1 ≠ n := by omega
      have hi := ih (i + 1) hn' k hk'
      have e : i + (k + 1) = i + 1 + k := by omega
      rw [prettyLoop, if_pos hne, e]
      simp only [List.getElem?_cons_succ]
      rw [← hi]
      have hmono : prettyPos (i + 1) ≤ prettyPos (i + 1 + k) := by unfold prettyPos; omega
      generalize hA : prettyPos (i + 1 + k) = A at *
      have hstep : prettyPos (i + 1) = prettyPos i + 1 +
          (if (i + 1) % 4 = 0 then (if (i + 1) % 16 = 0 then [' ', ' '] else [' ']) else []).length := by
        unfold prettyPos
        split
        · split
          · simp only [List.length_cons, List.length_nil]; omega
          · simp only [List.length_cons, List.length_nil]; omega
        · simp only [List.length_nil]; omega
      generalize (if (i + 1) % 4 = 0 then (if (i + 1) % 16 = 0 then [' ', ' '] else [' ']) else []) = gap at *
      obtain ⟨B, hB⟩ : ∃ B, A = prettyPos (i + 1) + B := ⟨A - prettyPos (i + 1), by omega⟩
      rw [hB, show prettyPos (i + 1) + B - prettyPos i = (gap.length + B) + 1 by omega,
        show prettyPos (i + 1) + B - prettyPos (i + 1) = B by omega, List.getElem?_cons_succ,
        List.getElem?_append_right (by omega)]
      congr 1
      omega

theorem prettyLoop_length (n i : Nat) (v : List Bool) (hn : i + v.length = n) (hv : v ≠ []) :
    (prettyLoop n i v).length + prettyPos i = prettyPos (n - 1) + 1 := by
  induction v generalizing i with
  | nil => exact absurd rfl hv
  | cons d v ih =>
    simp only [List.length_cons] at hn
    rw [prettyLoop, List.length_cons, List.length_append]
    by_cases h0 : v = []
    · subst h0
      simp only [List.length_nil] at hn
      obtain rfl : i + 1 = n := by omega
      simp [prettyLoop]; omega
    · have hl : 0 < v.length := List.length_pos_of_ne_nil h0
      have hi := ih (i + 1) (by omega) h0
      rw [if_pos (by omega)]
      have hstep : prettyPos (i + 1) = prettyPos i + 1 +
          (if (i + 1) % 4 = 0 then (if (i + 1) % 16 = 0 then [' ', ' '] else [' ']) else []).length := by
        unfold prettyPos
        split
        · split
          · simp only [List.length_cons, List.length_nil]; omega
          · simp only [List.length_cons, List.length_nil]; omega
        · simp only [List.length_nil]; omega
      omega

/-- **C57.** The format of `pretty`: one space after every 4 digits, two after every 16, none at the end.  (Digit `i`
stands at place `i + i/4 + i/16`, the last character is the last digit, and everything else is spaces by
`C57_pretty`.) -/
theorem C57_pretty_format (b : Binv) (s : List Char) (h : b.pretty = .ok s) :
    (∀ i < b.length, s[i + i / 4 + i / 16]? = b.string[i]?) ∧
    s.length = b.length + (b.length - 1) / 4 + (b.length - 1) / 16 := by
  unfold Binv.pretty at h
  split at h
  · rename_i hm
    cases h
    have h0 : b.vector ≠ [] := by
      intro h0
      rw [Binv.length, h0] at hm
      simp at hm
    have hp : 0 < b.vector.length := List.length_pos_of_ne_nil h0
    refine ⟨?_, ?_⟩
    · intro i hi
      have := prettyLoop_get b.length 0 b.vector (by simp [Binv.length]) i hi
      rw [string_eq, List.getElem?_map, ← this]
      simp [prettyPos]
    · have := prettyLoop_length b.length 0 b.vector (by simp [Binv.length]) h0
      unfold prettyPos Binv.length at *
      omega
  · cases h

/-- **C57.** `pretty` exists exactly for the lengths 1, 2, 4, …, 64; without its spaces it is `string`, and the
constructor reads it back. -/
theorem C57_pretty (b : Binv) :
    ((∃ s, b.pretty = .ok s) ↔ ∃ k ≤ 6, b.length = 2 ^ k) ∧
    (∀ e, b.pretty = .error e → e = .prettyLength) ∧
    (∀ s, b.pretty = .ok s → s.filter (· ≠ ' ') = b.string ∧ mk { vector := some (.str s) } = .ok b) := by
  have hmem : b.length ∈ (List.range 7).map (2 ^ ·) ↔ ∃ k ≤ 6, b.length = 2 ^ k := by
    simp only [List.mem_map, List.mem_range]
    constructor
    · rintro ⟨k, h1, h2⟩; exact ⟨k, by omega, h2.symm⟩
    · rintro ⟨k, h1, h2⟩; exact ⟨k, by omega, h2.symm⟩
  unfold Binv.pretty
  refine ⟨?_, ?_, ?_⟩
  · rw [← hmem]
    split
    · rename_i h; exact ⟨fun _ => h, fun _ => ⟨_, rfl⟩⟩
    · rename_i h
      exact ⟨fun hs => (by obtain ⟨s, hs⟩ := hs; cases hs), fun h2 => absurd h2 h⟩
  · intro e h
    split at h <;> cases h
    rfl
  · intro s h
    split at h <;> cases h
    have h1 := prettyLoop_filter b.length 0 b.vector
    rw [← string_eq] at h1
    refine ⟨h1, ?_⟩
    have h2 := mk_string b
    unfold mk mkVector at h2 ⊢
    simp only [Option.isNone_none, if_true] at h2 ⊢
    rw [h1]
    have h3 : b.string.filter (· ≠ ' ') = b.string := by
      rw [← h1, List.filter_filter]; simp
    rw [h3] at h2
    exact h2

example : (⟨[false, false, false, false, false, true, false, true]⟩ : Binv).pretty = .ok "0000 0101".toList := by decide

end Verif.BV
