import Verif.Binv.Basic
import Mathlib.Data.Nat.Bitwise

/-! # Properties C26, C27, C28 of `Binv` -/

namespace Verif.BV
open Verif.Py

/-! ## C26: construction -/

/-- **C26.** Building from the string, or from the exposet in any order and multiplicity, gives the vector back. -/
theorem C26_roundtrip (b : Binv) :
    mk { vector := some (.str b.string) } = .ok b ∧
    mk { vector := some (.binv b) } = .ok b ∧
    (∀ x : List Int, (∀ i : Int, i ∈ x ↔ ∃ j ∈ b.exposet, i = (j : Nat)) →
      mk { exposet := some x, length := some b.length } = .ok b) := by
  refine ⟨mk_string b, rfl, ?_⟩
  intro x hx
  have hb : ∀ i ∈ x, 0 ≤ i ∧ i < (b.length : Int) := by
    intro i hi
    obtain ⟨j, hj, rfl⟩ := (hx i).1 hi
    rw [mem_exposet] at hj
    have : j < b.vector.length := (List.getElem?_eq_some_iff.1 hj).1
    unfold Binv.length; omega
  obtain ⟨c, e1, e2, e3⟩ := fromExposet_ok x b.length hb
  have : c = b := by
    apply ext_exposet (by rw [e2]; simp)
    intro i
    rw [e3, hx]
    constructor
    · rintro ⟨j, hj, h⟩
      have : i = j := by omega
      rwa [this]
    · intro h; exact ⟨i, h, rfl⟩
  subst this
  unfold mk mkExposet
  simp only
  split
  · rename_i h
    obtain ⟨m, h1, h2, _⟩ := pyMax_ok (l := x) (by intro h0; rw [h0] at h; simp at h)
    rw [h1]
    simp only
    rw [if_pos (hb m h2).2, e1]
  · exact e1

example : mk { exposet := some [3, 1, 3], length := some 6 } = .ok ⟨[false, true, false, true, false, false]⟩ := by decide

/-- **C26.** `Binv(intval=n, length=L)` for positive `L`: succeeds iff `n < 2**L`, and the result has the length and
the value asked for. -/
theorem C26_intval_length (n L : Nat) (hL : 0 < L) :
    (n < 2 ^ L → ∃ b, mk { intval := some n, length := some L } = .ok b ∧ b.length = L ∧ b.intval = n) ∧
    (¬ n < 2 ^ L → mk { intval := some n, length := some L } = .error .lengthError) := by
  unfold mk mkIntval
  simp only [ge_iff_le, Int.natCast_nonneg, if_true, Int.toNat_natCast, Int.ofNat_le, binaryLength_le]
  constructor
  · intro h
    rw [if_pos h]
    refine ⟨_, rfl, ?_, ?_⟩
    · unfold Binv.length
      rw [length_zfill n L (by rw [Int.ofNat_le, binaryLength_le]; exact h) (by omega)]; simp
    · rw [intval_eq]; exact valB_zfill n L
  · intro h; rw [if_neg h]

example : mk { intval := some 10, length := some 6 } = .ok ⟨[false, true, false, true, false, false]⟩ := by decide
example : mk { intval := some 10, length := some 3 } = .error .lengthError := by decide

/-- **C26.** The value and the length of a non-empty vector give it back. -/
theorem C26_intval_roundtrip (b : Binv) (h : b.length ≠ 0) :
    mk { intval := some b.intval, length := some b.length } = .ok b := by
  obtain ⟨c, e1, e2, e3⟩ := (C26_intval_length b.intval b.length (by omega)).1 (by rw [intval_eq]; exact valB_lt _)
  rw [e1]
  obtain ⟨v⟩ := b
  obtain ⟨w⟩ := c
  rw [intval_eq, intval_eq] at e3
  have : w = v := valB_inj e2 e3
  rw [this]

/-- The exception to the previous theorem: the empty vector comes back with length 1. -/
theorem C26_intval_roundtrip_fails_for_empty :
    mk { intval := some (⟨[]⟩ : Binv).intval, length := some (⟨[]⟩ : Binv).length } = .ok ⟨[false]⟩ := by decide

/-- **C26.** `Binv(intval=n)` has the value `n` and no unnecessary digit. -/
theorem C26_intval_only (n : Nat) :
    ∃ b, mk { intval := some n } = .ok b ∧ b.intval = n ∧ ∀ L, b.length ≤ L ↔ n < 2 ^ L := by
  unfold mk mkIntval
  simp only [ge_iff_le, Int.natCast_nonneg, if_true, Int.toNat_natCast]
  by_cases hn : n = 0
  · subst hn
    exact ⟨⟨[]⟩, rfl, rfl, by intro L; simp [Binv.length]⟩
  · rw [if_neg (by omega)]
    refine ⟨_, rfl, by rw [intval_eq]; exact valB_binLE n, ?_⟩
    intro L
    unfold Binv.length
    rw [length_binLE n hn, binaryLength_le]

/-- **C26.** `Binv(intval=n, minimal_length=m)` for positive `m`: the value is `n` and the length is the least that is
at least `m` and sufficient. -/
theorem C26_intval_minimal_length (n m : Nat) (hm : 0 < m) :
    ∃ b, mk { intval := some n, minimalLength := some m } = .ok b ∧ b.intval = n ∧
      ∀ L, b.length ≤ L ↔ m ≤ L ∧ n < 2 ^ L := by
  unfold mk mkIntval
  simp only [ge_iff_le, Int.natCast_nonneg, if_true, Int.toNat_natCast]
  refine ⟨_, rfl, by rw [intval_eq]; exact valB_zfill _ _, ?_⟩
  intro L
  unfold Binv.length
  rw [length_zfill n _ (by omega) (by omega), ← binaryLength_le]
  omega

example : mk { intval := some 10, minimalLength := some 3 } = .ok ⟨[false, true, false, true]⟩ := by decide

/-- **C26.** Building from a set of naturals: with a length it succeeds iff the length exceeds every element, the
result has that length and that exposet; without, the length is the least possible. -/
theorem C26_exposet (x : List Nat) (L : Nat) :
    ((∀ i ∈ x, i < L) → ∃ b, mk { exposet := some (x.map Int.ofNat), length := some L } = .ok b ∧ b.length = L ∧
      ∀ i, i ∈ b.exposet ↔ i ∈ x) ∧
    ((∃ i ∈ x, L ≤ i) → mk { exposet := some (x.map Int.ofNat), length := some L } = .error .lengthError) ∧
    (∃ b, mk { exposet := some (x.map Int.ofNat) } = .ok b ∧ (∀ k, b.length ≤ k ↔ ∀ i ∈ x, i < k) ∧
      ∀ i, i ∈ b.exposet ↔ i ∈ x) := by
  have hmem : ∀ i : Nat, (i : Int) ∈ x.map Int.ofNat ↔ i ∈ x := by
    intro i; rw [List.mem_map]
    constructor
    · rintro ⟨j, hj, h⟩
      have : j = i := by simpa using h
      rwa [← this]
    · intro h; exact ⟨i, h, rfl⟩
  have hof : ∀ L : Nat, (∀ i ∈ x, i < L) → ∃ b, fromExposet (x.map Int.ofNat) L = .ok b ∧ b.length = L ∧
      ∀ i, i ∈ b.exposet ↔ i ∈ x := by
    intro L h
    obtain ⟨b, e1, e2, e3⟩ := fromExposet_ok (x.map Int.ofNat) L (by
      intro y hy
      obtain ⟨j, hj, rfl⟩ := List.mem_map.1 hy
      have := h j hj
      simp only [Int.ofNat_eq_natCast]; omega)
    exact ⟨b, e1, by rw [e2]; simp, fun i => by rw [e3, hmem]⟩
  have hmax : x ≠ [] → ∃ m : Nat, pyMax (x.map Int.ofNat) = .ok (m : Int) ∧ m ∈ x ∧ ∀ y ∈ x, y ≤ m := by
    intro h
    obtain ⟨m, h1, h2, h3⟩ := pyMax_ok (l := x.map Int.ofNat) (by simpa using h)
    obtain ⟨j, hj, rfl⟩ := List.mem_map.1 h2
    refine ⟨j, h1, hj, ?_⟩
    intro y hy
    have := h3 (y : Int) ((hmem y).2 hy)
    simpa using this
  unfold mk mkExposet
  simp only [List.length_map]
  refine ⟨?_, ?_, ?_⟩
  · intro h
    obtain ⟨b, e1, e2⟩ := hof L h
    refine ⟨b, ?_, e2⟩
    split
    · rename_i h0
      obtain ⟨m, h1, h2, _⟩ := hmax (by rintro rfl; simp at h0)
      rw [h1]
      simp only
      rw [if_pos (by have := h m h2; omega), e1]
    · exact e1
  · rintro ⟨i, hi, hi2⟩
    have h0 : x ≠ [] := by rintro rfl; simp at hi
    obtain ⟨m, h1, h2, h3⟩ := hmax h0
    rw [if_pos (List.length_pos_of_ne_nil h0), h1]
    simp only
    have := h3 i hi
    rw [if_neg (by omega)]
  · by_cases h0 : x = []
    · subst h0
      exact ⟨⟨[]⟩, rfl, by intro k; simp [Binv.length], by intro i; simp [Binv.exposet]⟩
    · obtain ⟨m, h1, h2, h3⟩ := hmax h0
      rw [if_neg (by simpa using h0), h1]
      obtain ⟨b, e1, e2, e3⟩ := hof (m + 1) (fun i hi => by have := h3 i hi; omega)
      refine ⟨b, e1, ?_, e3⟩
      intro k
      rw [e2]
      constructor
      · intro hk i hi; have := h3 i hi; omega
      · intro hk; have := hk m h2; omega

example : mk { exposet := some [0, 2, 3] } = .ok ⟨[true, false, true, true]⟩ := by decide

theorem mapM_bit {α : Type} (f : α → Except Err Bool) (zero one : α → Prop)
    (h0 : ∀ a, zero a → f a = .ok false) (h1 : ∀ a, one a → f a = .ok true)
    (h2 : ∀ a, ¬ zero a → ¬ one a → f a = .error .vectorEntry) (hd : ∀ a, zero a → ¬ one a) (l : List α) :
    ((∀ a ∈ l, zero a ∨ one a) → ∃ v, l.mapM f = .ok v ∧ v.length = l.length ∧
      ∀ i : Nat, v[i]? = some true ↔ ∃ a, l[i]? = some a ∧ one a) ∧
    ((∃ a ∈ l, ¬ zero a ∧ ¬ one a) → l.mapM f = .error .vectorEntry) := by
  induction l with
  | nil => exact ⟨fun _ => ⟨[], rfl, rfl, by simp⟩, by simp⟩
  | cons a l ih =>
    obtain ⟨ih1, ih2⟩ := ih
    refine ⟨?_, ?_⟩
    · intro h
      obtain ⟨v, e1, e2, e3⟩ := ih1 (fun x hx => h x (by simp [hx]))
      rcases h a (by simp) with ha | ha
      · refine ⟨false :: v, by rw [List.mapM_cons, h0 a ha, e1]; rfl, by simp [e2], ?_⟩
        intro i
        cases i with
        | zero => simpa using hd a ha
        | succ i => simpa using e3 i
      · refine ⟨true :: v, by rw [List.mapM_cons, h1 a ha, e1]; rfl, by simp [e2], ?_⟩
        intro i
        cases i with
        | zero => simpa using ha
        | succ i => simpa using e3 i
    · rintro ⟨x, hx, hx0, hx1⟩
      rw [List.mapM_cons]
      rcases List.mem_cons.1 hx with rfl | hx
      · rw [h2 x hx0 hx1]; rfl
      · have := ih2 ⟨x, hx, hx0, hx1⟩
        by_cases ha0 : zero a
        · rw [h0 a ha0, this]; rfl
        · by_cases ha1 : one a
          · rw [h1 a ha1, this]; rfl
          · rw [h2 a ha0 ha1]; rfl

/-- **C26.** A list is accepted iff all its entries are 0 or 1, and a string (spaces ignored) iff its characters are;
the digits of the result are the given ones.  Otherwise `VectorEntryError` is raised. -/
theorem C26_vector (l : List Int) (s : List Char) :
    ((∀ x ∈ l, x = 0 ∨ x = 1) → ∃ b, mk { vector := some (.list l) } = .ok b ∧ b.length = l.length ∧
      ∀ i, i ∈ b.exposet ↔ l[i]? = some 1) ∧
    ((∃ x ∈ l, x ≠ 0 ∧ x ≠ 1) → mk { vector := some (.list l) } = .error .vectorEntry) ∧
    ((∀ c ∈ s, c = '0' ∨ c = '1' ∨ c = ' ') → ∃ b, mk { vector := some (.str s) } = .ok b ∧
      b.string = s.filter (· ≠ ' ')) ∧
    ((∃ c ∈ s, c ≠ '0' ∧ c ≠ '1' ∧ c ≠ ' ') → mk { vector := some (.str s) } = .error .vectorEntry) := by
  have hl := mapM_bit entryBit (· = 0) (· = 1) (by rintro a rfl; rfl) (by rintro a rfl; rfl)
    (by intro a h0 h1; unfold entryBit; rw [if_neg h0, if_neg h1]) (by rintro a rfl; decide) l
  have hs := mapM_bit charBit (· = '0') (· = '1') (by rintro a rfl; rfl) (by rintro a rfl; rfl)
    (by intro a h0 h1; unfold charBit; rw [if_neg h0, if_neg h1]) (by rintro a rfl; decide) (s.filter (· ≠ ' '))
  have e1 : ∀ v, mk { vector := some v } = mkVector v := fun v => rfl
  simp only [e1, mkVector]
  refine ⟨?_, ?_, ?_, ?_⟩
  · intro h
    obtain ⟨v, h1, h2, h3⟩ := hl.1 h
    refine ⟨⟨v⟩, by rw [h1], h2, ?_⟩
    intro i
    rw [mem_exposet, h3]
    simp
  · intro h
    rw [hl.2 (by simpa using h)]
  · intro h
    obtain ⟨v, h1, h2, h3⟩ := hs.1 (by
      intro c hc
      obtain ⟨hc1, hc2⟩ := List.mem_filter.1 hc
      rcases h c hc1 with h | h | h
      · exact Or.inl h
      · exact Or.inr h
      · simp [h] at hc2)
    refine ⟨⟨v⟩, by rw [h1], ?_⟩
    rw [string_eq]
    apply List.ext_getElem (by rw [List.length_map]; exact h2)
    intro i h4 h5
    rw [List.length_map] at h4
    simp only at h4
    have h6 := h3 i
    rw [List.getElem?_eq_getElem h4, List.getElem?_eq_getElem h5] at h6
    simp only [Option.some.injEq, exists_eq_left'] at h6
    have h7 : (s.filter (· ≠ ' '))[i] = '0' ∨ (s.filter (· ≠ ' '))[i] = '1' := by
      have hm := List.getElem_mem h5
      obtain ⟨hc1, hc2⟩ := List.mem_filter.1 hm
      rcases h _ hc1 with h | h | h
      · exact Or.inl h
      · exact Or.inr h
      · exact absurd h (of_decide_eq_true hc2)
    rw [List.getElem_map]
    cases hv : v[i] with
    | true => rw [h6.1 hv]; rfl
    | false =>
      rcases h7 with h7 | h7
      · rw [h7]; rfl
      · have := h6.2 h7; rw [hv] at this; cases this
  · rintro ⟨c, hc, c0, c1, c2⟩
    rw [hs.2 ⟨c, List.mem_filter.2 ⟨hc, by simpa using c2⟩, c0, c1⟩]

example : mk { vector := some (.str "0 1".toList) } = .ok ⟨[false, true]⟩ := by decide
example : mk { vector := some (.list [0, 1, 2]) } = .error .vectorEntry := by decide

/-- **C26.** `Binv(exposet=x, minimal_length=m)` for a non-empty set: the exposet is `x`, and the length is the least
that is at least `m` and exceeds every element. -/
theorem C26_exposet_minimal_length (x : List Nat) (hx : x ≠ []) (m : Nat) :
    ∃ b, mk { exposet := some (x.map Int.ofNat), minimalLength := some m } = .ok b ∧
      (∀ L, b.length ≤ L ↔ m ≤ L ∧ ∀ i ∈ x, i < L) ∧ ∀ i, i ∈ b.exposet ↔ i ∈ x := by
  obtain ⟨M, h1, h2, h3⟩ := pyMax_ok (l := x.map Int.ofNat) (by simpa using hx)
  obtain ⟨j, hj, rfl⟩ := List.mem_map.1 h2
  have h4 : ∀ y ∈ x, y ≤ j := by
    intro y hy
    have := h3 (y : Int) (List.mem_map.2 ⟨y, hy, rfl⟩)
    simpa using this
  obtain ⟨b, e1, e2, e3⟩ := fromExposet_ok (x.map Int.ofNat) (max (m : Int) (Int.ofNat j + 1)) (by
    intro y hy
    obtain ⟨k, hk, rfl⟩ := List.mem_map.1 hy
    have := h4 k hk
    simp only [Int.ofNat_eq_natCast]; omega)
  refine ⟨b, ?_, ?_, ?_⟩
  · unfold mk mkExposet
    simp only [h1]
    exact e1
  · intro L
    rw [e2]
    simp only [Int.ofNat_eq_natCast]
    constructor
    · intro h
      refine ⟨by omega, ?_⟩
      intro i hi; have := h4 i hi; omega
    · rintro ⟨h5, h6⟩
      have := h6 j hj; omega
  · intro i
    rw [e3, List.mem_map]
    constructor
    · rintro ⟨k, hk, h⟩
      have : k = i := by simpa using h
      rwa [← this]
    · intro h; exact ⟨i, h, rfl⟩

example : mk { exposet := some [0, 1], minimalLength := some 3 } = .ok ⟨[true, true, false]⟩ := by decide

/-- For the empty set the same call is a `ValueError`, whatever the minimal length (line 77 takes the maximum of
nothing). -/
theorem C26_exposet_minimal_length_empty (m : Int) :
    mk { exposet := some [], minimalLength := some m } = .error .valueError := rfl

/-- **C26.** Negative values are rejected. -/
theorem C26_negative_intval (n : Int) (l m : Option Int) (h : n < 0) :
    mk { intval := some n, length := l, minimalLength := m } = .error .intvalError := by
  unfold mk mkIntval
  simp only
  rw [if_neg (by omega)]

/-- **C26.** Value, weight, exposet, string and required length describe the same digits. -/
theorem C26_attributes (b : Binv) :
    b.intval = (b.exposet.map (2 ^ ·)).sum ∧ b.weight = b.exposet.length ∧ b.exposet.Nodup ∧
    (∀ i, b.hasIndex i = true ↔ b.intval.testBit i = true) ∧
    (∀ i, i ∈ b.exposet ↔ b.string[i]? = some '1') ∧ b.string.length = b.length ∧
    (∀ k, b.requiredLength ≤ k ↔ b.intval < 2 ^ k) := by
  refine ⟨intval_sum b, weight_eq b, ((exposet_pairwise b).imp (fun h => Nat.ne_of_lt h)), ?_, ?_, ?_, ?_⟩
  · intro i
    unfold Binv.hasIndex
    rw [List.contains_iff_mem, mem_exposet, intval_eq, testBit_valB, List.getD_eq_getElem?_getD]
    cases b.vector[i]? <;> simp
  · intro i
    rw [mem_exposet, string_eq, List.getElem?_map]
    rcases b.vector[i]? with _ | _ | _ <;> simp
  · rw [string_eq, List.length_map]; rfl
  · intro k
    have hb : b.intval < 2 ^ k ↔ ∀ i ∈ b.exposet, i < k := by
      constructor
      · intro h i hi
        by_contra hk
        rw [mem_exposet] at hi
        have h1 : b.intval.testBit i = true := by rw [intval_eq, testBit_valB, List.getD_eq_getElem?_getD, hi]; rfl
        have h2 := Nat.ge_two_pow_of_testBit h1
        have h3 := Nat.pow_le_pow_right (n := 2) (by omega) (Nat.le_of_not_lt hk)
        omega
      · intro h
        apply Nat.lt_pow_two_of_testBit
        intro i hi
        rw [intval_eq, testBit_valB, List.getD_eq_getElem?_getD]
        by_contra hc
        have : i ∈ b.exposet := by
          rw [mem_exposet]
          revert hc
          rcases b.vector[i]? with _ | _ | _ <;> simp
        have := h i this
        omega
    rw [hb]
    unfold Binv.requiredLength
    have hm : ∀ (l : List Nat) (x : Nat), x ≤ l.foldl max x ∧ (∀ y ∈ l, y ≤ l.foldl max x) ∧ (l.foldl max x = x ∨ l.foldl max x ∈ l) := by
      intro l
      induction l with
      | nil => simp
      | cons z l ih =>
        intro x
        obtain ⟨h1, h2, h3⟩ := ih (max x z)
        rw [List.foldl_cons]
        refine ⟨by omega, ?_, ?_⟩
        · intro y hy
          rcases List.mem_cons.1 hy with rfl | hy
          · omega
          · exact h2 y hy
        · rcases h3 with h3 | h3
          · rw [h3]
            rcases Nat.le_total x z with h | h
            · rw [max_eq_right h]; simp
            · rw [max_eq_left h]; simp
          · right; simp [h3]
    split
    · rename_i h0; rw [h0]; simp
    · rename_i h0
      obtain ⟨h1, h2, h3⟩ := hm b.exposet 0
      constructor
      · intro h i hi; have := h2 i hi; omega
      · intro h
        rcases h3 with h3 | h3
        · obtain ⟨y, hy⟩ := List.exists_mem_of_ne_nil _ h0
          have := h y hy
          have := h2 y hy
          omega
        · have := h _ h3; omega

/-- **C26.** Which argument combinations are accepted: exactly one of `vector`, `intval` and `exposet`, and no
`length` beside `vector`. -/
theorem C26_argument_error (a : Args) :
    (a.vector.isSome.toNat + a.intval.isSome.toNat + a.exposet.isSome.toNat ≠ 1 ∨ (a.vector.isSome ∧ a.length.isSome)) ↔
      mk a = .error .argumentError := by
  have hset : ∀ (x : List Int) v e, setAll x v = .error e → e = .indexError := by
    intro x
    induction x with
    | nil => intro v e h; cases h
    | cons i x ih =>
      intro v e h
      rw [setAll] at h
      split at h
      · rename_i e' h'
        unfold setTrue at h'
        split at h' <;> split at h' <;> cases h' <;> cases h <;> rfl
      · exact ih _ _ h
  have hfrom : ∀ (x : List Int) L, fromExposet x L ≠ .error .argumentError := by
    intro x L h
    unfold fromExposet at h
    split at h
    · rename_i e h'
      have := hset _ _ _ h'
      subst this; cases h
    · cases h
  have hmax : ∀ (x : List Int) e, pyMax x = .error e → e = .valueError := by
    intro x e h; cases x <;> cases h; rfl
  have hexp : ∀ x l m, mkExposet x l m ≠ .error .argumentError := by
    intro x l m h
    unfold mkExposet at h
    split at h
    · split at h
      · cases h
      · split at h
        · rename_i h'; have := hmax _ _ h'; subst this; cases h
        · exact hfrom _ _ h
    · split at h
      · split at h
        · rename_i h'; have := hmax _ _ h'; subst this; cases h
        · split at h
          · exact hfrom _ _ h
          · cases h
      · exact hfrom _ _ h
    · split at h
      · rename_i h'; have := hmax _ _ h'; subst this; cases h
      · exact hfrom _ _ h
  have hint : ∀ n l m, mkIntval n l m ≠ .error .argumentError := by
    intro n l m h
    unfold mkIntval at h
    split at h
    · split at h
      · split at h <;> cases h
      · split at h <;> cases h
      · cases h
    · cases h
  have hmapM : ∀ {α : Type} (f : α → Except Err Bool) (_ : ∀ a e, f a = .error e → e = .vectorEntry) (l : List α) e,
      l.mapM f = .error e → e = .vectorEntry := by
    intro α f hf l
    induction l with
    | nil => intro e h; cases h
    | cons a l ih =>
      intro e h
      rw [List.mapM_cons] at h
      cases ha : f a with
      | error e' =>
        rw [ha] at h
        have := hf _ _ ha
        subst this; cases h; rfl
      | ok x =>
        rw [ha] at h
        cases hl : l.mapM f with
        | error e' =>
          rw [hl] at h
          have := ih _ hl
          subst this; cases h; rfl
        | ok y => rw [hl] at h; cases h
  have hvec : ∀ v, mkVector v ≠ .error .argumentError := by
    intro v h
    cases v with
    | list l =>
      simp only [mkVector] at h
      split at h
      · rename_i h'
        have := hmapM _ (by intro a e h; unfold entryBit at h; split at h <;> (try split at h) <;> cases h; rfl) _ _ h'
        subst this; cases h
      · cases h
    | str s =>
      simp only [mkVector] at h
      split at h
      · rename_i h'
        have := hmapM _ (by intro a e h; unfold charBit at h; split at h <;> (try split at h) <;> cases h; rfl) _ _ h'
        subst this; cases h
      · cases h
    | binv b => cases h
  obtain ⟨v, n, x, l, m⟩ := a
  rcases v with _ | v <;> rcases n with _ | n <;> rcases x with _ | x <;> rcases l with _ | l <;>
    simp [mk, hexp, hint, hvec]

end Verif.BV
