import Verif.Boolf.Props12

/-!
# Properties of Boolean functions: halves of the truth table (C79)
-/

namespace Verif.BF
open Verif.Py Verif.BV Verif.P Verif.W
open Verif.A hiding Mat

/-- `Binv(intval=m, length=L)` holds the digits of the number. -/
theorem mk_digits {m L : Nat} (hL : 0 < L) (hm : m < 2 ^ L) :
    BV.mk { intval := some (m : Int), length := some (L : Int) } = .ok ⟨(List.range L).map m.testBit⟩ := by
  obtain ⟨b, h1, h2, h3⟩ := (C26_intval_length m L hL).1 hm
  rw [h1]
  obtain ⟨v⟩ := b
  rw [intval_eq] at h3
  have : v = (List.range L).map m.testBit := by
    apply valB_inj (by simpa [Binv.length] using h2)
    rw [h3, valB_digits hm]
  rw [this]

theorem testBit_digits (L : Nat) (F : Nat → Bool) (k : Nat) : (valB ((List.range L).map F)).testBit k = (decide (k < L) && F k) := by
  rw [testBit_valB, List.getD_eq_getElem?_getD, List.getElem?_map]
  by_cases h : k < L
  · rw [List.getElem?_range h]; simp [h]
  · rw [List.getElem?_eq_none (by simp; omega)]; simp [h]

theorem take_range_map {α : Type} (F : Nat → α) (h : Nat) : ((List.range (2 * h)).map F).take h = (List.range h).map F := by
  rw [← List.map_take, List.take_range, Nat.min_eq_left (by omega)]

theorem drop_range_map {α : Type} (F : Nat → α) (h : Nat) : ((List.range (2 * h)).map F).drop h = (List.range h).map fun k => F (h + k) := by
  rw [show 2 * h = h + h by omega, List.range_add, List.map_append, List.drop_left' (by simp), List.map_map]
  rfl

theorem reverse_range_map {α : Type} (F : Nat → α) (h : Nat) : ((List.range h).map F).reverse = (List.range h).map fun k => F (h - 1 - k) := by
  apply List.ext_getElem?
  intro i
  by_cases hi : i < h
  · rw [List.getElem?_reverse (by simpa using hi), List.getElem?_map, List.getElem?_map, List.getElem?_range hi, List.length_map, List.length_range,
      List.getElem?_range (by omega)]
    rfl
  · rw [List.getElem?_eq_none (by simp; omega), List.getElem?_eq_none (by simp; omega)]

theorem two_pow_half {n : Nat} (hn : 0 < n) : 2 ^ n = 2 * 2 ^ (n - 1) := by
  obtain ⟨m, rfl⟩ : ∃ m, n = m + 1 := ⟨n - 1, by omega⟩
  rw [Nat.add_sub_cancel, Nat.pow_succ, Nat.mul_comm]

theorem coordinates_eq {f : Boolf} (h : Sound f) {n : Nat} (hn : f.adicity ≤ n) (h0 : 0 < n) :
    f.hasseMatrixCoordinates (.arity n) = .ok (valB ((List.range (2 ^ (n - 1))).map fun k => f.eval k.testBit),
      valB ((List.range (2 ^ (n - 1))).map fun k => f.eval (2 ^ n - 1 - k).testBit)) := by
  unfold Boolf.hasseMatrixCoordinates
  rw [tt_arity_eq h hn]
  simp only [bind, Except.bind, ofBools_eq, pure, Except.pure, intval_eq, Binv.length, List.length_map, List.length_range]
  rw [List.take_of_length_le (i := 2 ^ n) (by simp), two_pow_half h0, Nat.mul_div_cancel_left _ (by decide), take_range_map, drop_range_map, reverse_range_map]
  have : (List.range (2 ^ (n - 1))).map (fun k => f.eval (2 ^ (n - 1) + (2 ^ (n - 1) - 1 - k)).testBit) =
      (List.range (2 ^ (n - 1))).map (fun k => f.eval (2 * 2 ^ (n - 1) - 1 - k).testBit) := by
    apply List.map_congr_left
    intro k hk
    have := List.mem_range.1 hk
    rw [show 2 ^ (n - 1) + (2 ^ (n - 1) - 1 - k) = 2 * 2 ^ (n - 1) - 1 - k by omega]
  rw [this]

theorem eval_true_iff {f : Boolf} (h : Sound f) (k : Nat) : f.eval k.testBit = true ↔ f.getItem k = .ok true := by
  rw [getItem_eq h]; simp

/-- **C79.** `hasse_matrix_coordinates(n)`: digit `k` of the first number is the value at place `k` of the truth table of length `2 ** n`, digit `k` of the second is
the value at the place `k` from the end; both have `2 ** (n-1)` digits. -/
theorem C79_coordinates (f : Boolf) (hf : Obj f) (n : Nat) (hn : f.adicity ≤ n) (h0 : 0 < n) :
    ∃ i j, f.hasseMatrixCoordinates (.arity n) = .ok (i, j) ∧ i < 2 ^ 2 ^ (n - 1) ∧ j < 2 ^ 2 ^ (n - 1) ∧
      ∀ k < 2 ^ (n - 1), (i.testBit k = true ↔ f.getItem k = .ok true) ∧ (j.testBit k = true ↔ f.getItem (2 ^ n - 1 - k) = .ok true) := by
  have h := hf.good.toSound
  refine ⟨_, _, coordinates_eq h hn h0, BF.valB_range_lt _ _, BF.valB_range_lt _ _, fun k hk => ?_⟩
  rw [testBit_digits, testBit_digits, ← eval_true_iff h, ← eval_true_iff h]
  simp [hk]

/-- **C79.** Without argument the arity is the adicity; for arity 0 the first number is 0 and the second one is the only entry; smaller arities raise an exception. -/
theorem C79_coordinates_rest (f : Boolf) (hf : Obj f) :
    f.hasseMatrixCoordinates = f.hasseMatrixCoordinates (.arity f.adicity) ∧
    (f.adicity = 0 → f.hasseMatrixCoordinates (.arity 0) = .ok (0, if f.getItem 0 = .ok true then 1 else 0)) ∧
    (∀ n : Int, 0 ≤ n → n < f.adicity → f.hasseMatrixCoordinates (.arity n) = .error .argTooSmall) ∧
    (∀ n : Int, n < 0 → f.hasseMatrixCoordinates (.arity n) = .error .valueError) := by
  have h := hf.good.toSound
  obtain ⟨_, h2, h3, h4⟩ := C51_tt f hf
  refine ⟨?_, fun ha => ?_, fun n h0 hn => ?_, fun n hn => ?_⟩
  · unfold Boolf.hasseMatrixCoordinates
    rw [h4]
  · unfold Boolf.hasseMatrixCoordinates
    have e := tt_arity_eq h (n := 0) (by omega)
    rw [Int.natCast_zero] at e
    rw [e]
    simp only [bind, Except.bind, ofBools_eq, pure, Except.pure, intval_eq]
    rw [getItem_eq h]
    simp only [Binv.length, Nat.pow_zero, List.range_one, List.map_cons, List.map_nil, List.length_cons, List.length_nil]
    cases f.eval (Nat.testBit 0) <;> decide
  · unfold Boolf.hasseMatrixCoordinates
    rw [h2 n h0 hn]
    rfl
  · unfold Boolf.hasseMatrixCoordinates
    rw [h3 n hn]
    rfl

/-- **C79.** `hasse_matrix_coordinates_to_tt` turns the coordinates back into the truth table. -/
theorem C79_roundtrip (f : Boolf) (hf : Obj f) (n : Nat) (hn : f.adicity ≤ n) (h0 : 0 < n) :
    ∃ i j : Nat, f.hasseMatrixCoordinates (.arity n) = .ok (i, j) ∧ hasseMatrixCoordinatesToTT i j n = f.tt (.arity n) := by
  have h := hf.good.toSound
  refine ⟨_, _, coordinates_eq h hn h0, ?_⟩
  rw [tt_arity_eq h hn]
  unfold hasseMatrixCoordinatesToTT
  rw [Nat.one_shiftLeft]
  have hp : 0 < 2 ^ (n - 1) := Nat.two_pow_pos _
  have hhalf : 2 ^ n / 2 = 2 ^ (n - 1) := by rw [two_pow_half h0, Nat.mul_div_cancel_left _ (by decide)]
  have hd : ∀ F : Nat → Bool, (List.range (2 ^ (n - 1))).map (valB ((List.range (2 ^ (n - 1))).map F)).testBit = (List.range (2 ^ (n - 1))).map F := by
    intro F
    apply List.map_congr_left
    intro k hk
    rw [testBit_digits]
    simp [List.mem_range.1 hk]
  simp only [hhalf]
  rw [mk_digits hp (BF.valB_range_lt _ _), mk_digits hp (BF.valB_range_lt _ _)]
  simp only [bind, Except.bind]
  rw [hd, hd, reverse_range_map, ofBools_eq, two_pow_half h0, two_mul, List.range_add, List.map_append, List.map_map]
  congr 3
  apply List.map_congr_left
  intro k hk
  have := List.mem_range.1 hk
  simp only [Function.comp]
  rw [show 2 ^ (n - 1) + 2 ^ (n - 1) - 1 - (2 ^ (n - 1) - 1 - k) = 2 ^ (n - 1) + k by omega]

/-- **C79.** Every pair of numbers with `2 ** (n-1)` digits gives a truth table of length `2 ** n`, and the function with this table has these coordinates. -/
theorem C79_from_coordinates (i j n : Nat) (h0 : 0 < n) (hi : i < 2 ^ 2 ^ (n - 1)) (hj : j < 2 ^ 2 ^ (n - 1)) :
    ∃ t f, hasseMatrixCoordinatesToTT i j n = .ok t ∧ t.length = 2 ^ n ∧ newTT (.binv t) = .ok f ∧ f.adicity ≤ n ∧
      f.hasseMatrixCoordinates (.arity n) = .ok (i, j) := by
  have hp : 0 < 2 ^ (n - 1) := Nat.two_pow_pos _
  have hpow := two_pow_half h0
  have hhalf : 2 ^ n / 2 = 2 ^ (n - 1) := by omega
  obtain ⟨f, f1, f2, f3, _, f5⟩ := newTT_fun n (fun k => if k < 2 ^ (n - 1) then i.testBit k else j.testBit (2 ^ n - 1 - k))
  rw [(C64_formats _ _ _ (((List.range (2 ^ n)).map fun k => if k < 2 ^ (n - 1) then i.testBit k else j.testBit (2 ^ n - 1 - k)).map fun b => if b then '1' else '0') (by
    apply List.filter_eq_self.2
    intro c hc
    obtain ⟨b, _, rfl⟩ := List.mem_map.1 hc
    cases b <;> rfl)).1] at f1
  refine ⟨_, f, ?_, ?_, f1, f3, ?_⟩
  · unfold hasseMatrixCoordinatesToTT
    rw [Nat.one_shiftLeft]
    simp only [hhalf]
    rw [mk_digits hp hi, mk_digits hp hj]
    simp only [bind, Except.bind]
    rw [ofBools_eq, reverse_range_map]
    congr 2
    conv_rhs => rw [hpow, two_mul, List.range_add, List.map_append, List.map_map]
    congr 1
    · apply List.map_congr_left
      intro k hk
      rw [if_pos (List.mem_range.1 hk)]
    · apply List.map_congr_left
      intro k hk
      have := List.mem_range.1 hk
      simp only [Function.comp]
      rw [if_neg (by omega), show 2 ^ (n - 1) + 2 ^ (n - 1) - 1 - (2 ^ (n - 1) + k) = 2 ^ (n - 1) - 1 - k by omega]
  · simp [Binv.length]
  · rw [coordinates_eq f2.toSound f3 h0]
    have e1 : (List.range (2 ^ (n - 1))).map (fun k => f.eval k.testBit) = (List.range (2 ^ (n - 1))).map i.testBit := by
      apply List.map_congr_left
      intro k hk
      have := List.mem_range.1 hk
      rw [f5, Nat.mod_eq_of_lt (by omega), if_pos this]
    have e2 : (List.range (2 ^ (n - 1))).map (fun k => f.eval (2 ^ n - 1 - k).testBit) = (List.range (2 ^ (n - 1))).map j.testBit := by
      apply List.map_congr_left
      intro k hk
      have := List.mem_range.1 hk
      rw [f5, Nat.mod_eq_of_lt (by omega), if_neg (by omega), show 2 ^ n - 1 - (2 ^ n - 1 - k) = k by omega]
    rw [e1, e2, valB_digits hi, valB_digits hj]

example : hasseMatrixCoordinatesToTT 8 7 3 = .ok ⟨[false, false, false, true, false, true, true, true]⟩ := by decide

/-- The exception to `C79_roundtrip` is arity 0: the coordinates of the false function give a table of length 2, because `Binv(intval=0, length=0)` has length 1, and
those of the true function raise an exception. -/
theorem C79_roundtrip_zero :
    (setConstant false).hasseMatrixCoordinates (.arity 0) = .ok (0, 0) ∧ hasseMatrixCoordinatesToTT 0 0 0 = .ok ⟨[false, false]⟩ ∧
    (setConstant true).hasseMatrixCoordinates (.arity 0) = .ok (0, 1) ∧ hasseMatrixCoordinatesToTT 0 1 0 = .error .lengthError := by
  decide

/-- **C79.** Numbers that are negative or have too many digits raise an exception. -/
theorem C79_to_tt_errors (i j : Int) (n : Nat) (h0 : 0 < n) :
    (i < 0 → hasseMatrixCoordinatesToTT i j n = .error .intvalError) ∧
    (2 ^ 2 ^ (n - 1) ≤ i → hasseMatrixCoordinatesToTT i j n = .error .lengthError) ∧
    (0 ≤ i → i < 2 ^ 2 ^ (n - 1) → j < 0 → hasseMatrixCoordinatesToTT i j n = .error .intvalError) ∧
    (0 ≤ i → i < 2 ^ 2 ^ (n - 1) → 2 ^ 2 ^ (n - 1) ≤ j → hasseMatrixCoordinatesToTT i j n = .error .lengthError) := by
  have hp : 0 < 2 ^ (n - 1) := Nat.two_pow_pos _
  have hhalf : 2 ^ n / 2 = 2 ^ (n - 1) := by have := two_pow_half h0; omega
  have big : ∀ z : Int, 2 ^ 2 ^ (n - 1) ≤ z → BV.mk { intval := some z, length := some ((2 ^ (n - 1) : Nat) : Int) } = .error .lengthError := by
    intro z hz
    have h2 : (0 : Int) < 2 ^ 2 ^ (n - 1) := by positivity
    obtain ⟨m, rfl⟩ := Int.eq_ofNat_of_zero_le (show 0 ≤ z by omega)
    exact (C26_intval_length m _ hp).2 (by exact_mod_cast Int.not_lt.2 hz)
  have good : ∀ z : Int, 0 ≤ z → z < 2 ^ 2 ^ (n - 1) → ∃ b, BV.mk { intval := some z, length := some ((2 ^ (n - 1) : Nat) : Int) } = .ok b := by
    intro z h1 h2
    obtain ⟨m, rfl⟩ := Int.eq_ofNat_of_zero_le h1
    exact ⟨_, mk_digits hp (by exact_mod_cast h2)⟩
  unfold hasseMatrixCoordinatesToTT
  rw [Nat.one_shiftLeft]
  simp only [hhalf]
  refine ⟨fun h => ?_, fun h => ?_, fun h1 h2 h => ?_, fun h1 h2 h => ?_⟩
  · rw [C26_negative_intval _ _ _ h]; rfl
  · rw [big i h]; rfl
  · obtain ⟨b, hb⟩ := good i h1 h2
    rw [hb, C26_negative_intval _ _ _ h]; rfl
  · obtain ⟨b, hb⟩ := good i h1 h2
    rw [hb, big j h]; rfl

example : (2 : Int) ^ 2 ^ (2 - 1) ≤ 4 ∧ hasseMatrixCoordinatesToTT 4 0 2 = .error .lengthError := by decide

/-- **C79.** `is_solid(n)` for `n` of at least 2 and at least the adicity is the exclusive or of the four middle entries of the truth table. -/
theorem C79_solid (f : Boolf) (hf : Obj f) (n : Nat) (hn : f.adicity ≤ n) (h2 : 2 ≤ n) :
    ∃ a b c d, f.getItem (2 ^ (n - 1) - 2) = .ok a ∧ f.getItem (2 ^ (n - 1) - 1) = .ok b ∧ f.getItem (2 ^ (n - 1)) = .ok c ∧
      f.getItem (2 ^ (n - 1) + 1) = .ok d ∧ f.isSolid n = .ok (a ^^ b ^^ c ^^ d).toNat := by
  have h := hf.good.toSound
  refine ⟨_, _, _, _, getItem_eq h _, getItem_eq h _, getItem_eq h _, getItem_eq h _, ?_⟩
  have hpow := two_pow_half (show 0 < n by omega)
  have hpow' := two_pow_half (show 0 < n - 1 by omega)
  have hp : 0 < 2 ^ (n - 1 - 1) := Nat.two_pow_pos _
  unfold Boolf.isSolid
  rw [coordinates_eq h hn (by omega)]
  simp only [bind, Except.bind, pure, Except.pure]
  rw [if_neg (by omega), if_neg (by omega), Int.toNat_natCast]
  generalize hi : (List.range (2 ^ (n - 1))).map (fun k => f.eval k.testBit) = I
  generalize hj : (List.range (2 ^ (n - 1))).map (fun k => f.eval (2 ^ n - 1 - k).testBit) = J
  have hlt : ∀ l : List Bool, l.length = 2 ^ (n - 1) → valB l >>> (2 ^ (n - 1) - 2) < 2 ^ 2 := by
    intro l hl
    rw [Nat.shiftRight_eq_div_pow, Nat.div_lt_iff_lt_mul (Nat.two_pow_pos _), ← Nat.pow_add, show 2 + (2 ^ (n - 1) - 2) = 2 ^ (n - 1) by omega, ← hl]
    exact valB_lt l
  have hx : (valB I >>> (2 ^ (n - 1) - 2)) ^^^ (valB J >>> (2 ^ (n - 1) - 2)) < 2 ^ 2 :=
    Nat.xor_lt_two_pow (hlt I (by rw [← hi]; simp)) (hlt J (by rw [← hj]; simp))
  rw [weight_ones hx]
  have hb : ∀ k < 2, ((valB I >>> (2 ^ (n - 1) - 2)) ^^^ (valB J >>> (2 ^ (n - 1) - 2))).testBit k =
      (f.eval (2 ^ (n - 1) - 2 + k).testBit ^^ f.eval (2 ^ (n - 1) + 1 - k).testBit) := by
    intro k hk
    rw [Nat.testBit_xor, Nat.testBit_shiftRight, Nat.testBit_shiftRight, ← hi, ← hj, testBit_digits, testBit_digits]
    rw [decide_eq_true (show 2 ^ (n - 1) - 2 + k < 2 ^ (n - 1) by omega), show 2 ^ n - 1 - (2 ^ (n - 1) - 2 + k) = 2 ^ (n - 1) + 1 - k by omega]
    rfl
  have e0 := hb 0 (by decide)
  have e1 := hb 1 (by decide)
  rw [show 2 ^ (n - 1) - 2 + 1 = 2 ^ (n - 1) - 1 by omega, Nat.add_sub_cancel] at e1
  rw [Nat.add_zero, Nat.sub_zero] at e0
  unfold ones
  rw [show List.range 2 = [0, 1] from rfl, List.countP_cons, List.countP_cons, List.countP_nil, e0, e1]
  cases f.eval (2 ^ (n - 1) - 2).testBit <;> cases f.eval (2 ^ (n - 1) - 1).testBit <;> cases f.eval (2 ^ (n - 1)).testBit <;>
    cases f.eval (2 ^ (n - 1) + 1).testBit <;> rfl

/-- **C79.** Smaller arguments of `is_solid` raise an exception. -/
theorem C79_solid_errors (f : Boolf) (hf : Obj f) :
    (∀ n : Int, 0 ≤ n → n < f.adicity → f.isSolid n = .error .argTooSmall) ∧ (∀ n : Int, n < 0 → f.isSolid n = .error .valueError) ∧
    (f.adicity = 0 → f.isSolid 0 = .error .typeError) ∧ (f.adicity ≤ 1 → f.isSolid 1 = .error .valueError) := by
  have h := hf.good.toSound
  obtain ⟨_, h2, h3, h4⟩ := C79_coordinates_rest f hf
  refine ⟨fun n h0 hn => ?_, fun n hn => ?_, fun ha => ?_, fun ha => ?_⟩ <;> unfold Boolf.isSolid
  · rw [h3 n h0 hn]; rfl
  · rw [h4 n hn]; rfl
  · rw [h2 ha]; rfl
  · have := coordinates_eq h (n := 1) ha (by decide)
    rw [Int.natCast_one] at this
    rw [this]; rfl

/-! ### Palindromes -/

/-- the digits of the number below `L` read the same in both directions -/
def Palindrome (L m : Nat) : Prop := ∀ k < L, m.testBit k = m.testBit (L - 1 - k)

theorem toIndex_eq {m n : Nat} (h0 : 0 < n) (hm : m < 2 ^ 2 ^ n) : symmetricToIndex m n =
    if (List.range (2 ^ (n - 1))).map m.testBit = (List.range (2 ^ (n - 1))).map (fun k => m.testBit (2 ^ n - 1 - k))
    then .ok (valB ((List.range (2 ^ (n - 1))).map fun k => m.testBit (2 ^ (n - 1) + k))) else .error .argValue := by
  have hpow := two_pow_half h0
  have hhalf : 2 ^ n / 2 = 2 ^ (n - 1) := by omega
  unfold symmetricToIndex
  rw [if_neg (by omega)]
  simp only [Nat.one_shiftLeft]
  rw [if_pos (by exact_mod_cast hm), mk_digits (Nat.two_pow_pos _) hm]
  simp only [bind, Except.bind, hhalf, ofBools_eq, pure, Except.pure, intval_eq]
  rw [hpow, take_range_map, drop_range_map, reverse_range_map]
  have : (List.range (2 ^ (n - 1))).map (fun k => m.testBit (2 ^ (n - 1) + (2 ^ (n - 1) - 1 - k))) =
      (List.range (2 ^ (n - 1))).map (fun k => m.testBit (2 * 2 ^ (n - 1) - 1 - k)) := by
    apply List.map_congr_left
    intro k hk
    have := List.mem_range.1 hk
    rw [show 2 ^ (n - 1) + (2 ^ (n - 1) - 1 - k) = 2 * 2 ^ (n - 1) - 1 - k by omega]
  rw [this]

theorem palindrome_iff {m n : Nat} (h0 : 0 < n) : Palindrome (2 ^ n) m ↔
    (List.range (2 ^ (n - 1))).map m.testBit = (List.range (2 ^ (n - 1))).map (fun k => m.testBit (2 ^ n - 1 - k)) := by
  have hpow := two_pow_half h0
  rw [List.map_inj_left]
  constructor
  · intro h k hk
    exact h k (by have := List.mem_range.1 hk; omega)
  · intro h k hk
    by_cases hk' : k < 2 ^ (n - 1)
    · exact h k (List.mem_range.2 hk')
    · have := h (2 ^ n - 1 - k) (List.mem_range.2 (by omega))
      rw [show 2 ^ n - 1 - (2 ^ n - 1 - k) = k by omega] at this
      exact this.symm

/-- **C79.** `symmetric_to_index(m, n)` for a number `m` whose `2 ** n` digits read the same in both directions gives the number with the digits of the second half.
Other arguments raise an exception. -/
theorem C79_to_index (n : Nat) (h0 : 0 < n) :
    (∀ m : Nat, m < 2 ^ 2 ^ n → Palindrome (2 ^ n) m → ∃ r, symmetricToIndex m n = .ok r ∧ r < 2 ^ 2 ^ (n - 1) ∧
      ∀ k < 2 ^ (n - 1), r.testBit k = m.testBit (2 ^ (n - 1) + k)) ∧
    (∀ m : Nat, m < 2 ^ 2 ^ n → ¬ Palindrome (2 ^ n) m → symmetricToIndex m n = .error .argValue) ∧
    (∀ m : Nat, 2 ^ 2 ^ n ≤ m → symmetricToIndex m n = .error .argTooBig) ∧
    (∀ z : Int, z < 0 → symmetricToIndex z n = .error .intvalError) := by
  refine ⟨fun m hm hp => ?_, fun m hm hp => ?_, fun m hm => ?_, fun z hz => ?_⟩
  · rw [toIndex_eq h0 hm, if_pos ((palindrome_iff h0).1 hp)]
    refine ⟨_, rfl, BF.valB_range_lt _ _, fun k hk => ?_⟩
    rw [testBit_digits]
    simp [hk]
  · rw [toIndex_eq h0 hm, if_neg (fun h => hp ((palindrome_iff h0).2 h))]
  · unfold symmetricToIndex
    rw [if_neg (by omega)]
    simp only [Nat.one_shiftLeft]
    rw [if_neg (by have : ((2 ^ 2 ^ n : Nat) : Int) ≤ m := by exact_mod_cast hm
                   omega)]
  · unfold symmetricToIndex
    rw [if_neg (by omega)]
    simp only [Nat.one_shiftLeft]
    rw [if_pos (by have : (0 : Int) ≤ ((2 ^ 2 ^ n : Nat) : Int) := Int.natCast_nonneg _
                   omega), C26_negative_intval _ _ _ hz]
    rfl

example : Palindrome (2 ^ 2) 9 ∧ symmetricToIndex 9 2 = .ok 2 ∧ symmetricToIndex 8 2 = .error .argValue := by
  refine ⟨?_, by decide, by decide⟩
  unfold Palindrome
  decide

/-- **C79.** The index is the rank: palindromes are ordered like their indices, and every number below `2 ** (2 ** (n-1))` is the index of one. -/
theorem C79_index_is_rank (n : Nat) (h0 : 0 < n) :
    (∀ m m' r r' : Nat, m < 2 ^ 2 ^ n → m' < 2 ^ 2 ^ n → symmetricToIndex m n = .ok r → symmetricToIndex m' n = .ok r' → (m < m' ↔ r < r')) ∧
    (∀ r < 2 ^ 2 ^ (n - 1), ∃ m < 2 ^ 2 ^ n, Palindrome (2 ^ n) m ∧ symmetricToIndex m n = .ok r) := by
  have hpow := two_pow_half h0
  obtain ⟨c1, c2, _, _⟩ := C79_to_index n h0
  have hok : ∀ m r : Nat, m < 2 ^ 2 ^ n → symmetricToIndex m n = .ok r → Palindrome (2 ^ n) m ∧ r < 2 ^ 2 ^ (n - 1) ∧
      ∀ k < 2 ^ (n - 1), r.testBit k = m.testBit (2 ^ (n - 1) + k) := by
    intro m r hm hr
    by_cases hp : Palindrome (2 ^ n) m
    · obtain ⟨r', h1, h2, h3⟩ := c1 m hm hp
      rw [h1] at hr
      cases hr
      exact ⟨hp, h2, h3⟩
    · rw [c2 m hm hp] at hr
      cases hr
  -- a palindrome with the smaller index is smaller
  have mono : ∀ m m' r r' : Nat, m < 2 ^ 2 ^ n → m' < 2 ^ 2 ^ n → symmetricToIndex m n = .ok r → symmetricToIndex m' n = .ok r' → r < r' → m < m' := by
    intro m m' r r' hm hm' hr hr' hlt
    obtain ⟨_, _, h3⟩ := hok m r hm hr
    obtain ⟨_, h2', h3'⟩ := hok m' r' hm' hr'
    obtain ⟨k, k1, k2, k3⟩ := lt_of_top hlt
    have hk : k < 2 ^ (n - 1) := by
      by_contra hc
      rw [testBit_of_lt h2' (by omega)] at k2
      cases k2
    apply Nat.lt_of_testBit (2 ^ (n - 1) + k) (by rw [← h3 k hk, k1]) (by rw [← h3' k hk, k2])
    intro l hl
    by_cases hl' : l < 2 ^ n
    · have := k3 (l - 2 ^ (n - 1)) (by omega)
      rwa [h3 _ (by omega), h3' _ (by omega), show 2 ^ (n - 1) + (l - 2 ^ (n - 1)) = l by omega] at this
    · rw [testBit_of_lt hm (by omega), testBit_of_lt hm' (by omega)]
  have inj : ∀ m m' r : Nat, m < 2 ^ 2 ^ n → m' < 2 ^ 2 ^ n → symmetricToIndex m n = .ok r → symmetricToIndex m' n = .ok r → m = m' := by
    intro m m' r hm hm' hr hr'
    obtain ⟨p, _, h3⟩ := hok m r hm hr
    obtain ⟨p', _, h3'⟩ := hok m' r hm' hr'
    have upper : ∀ l, 2 ^ (n - 1) ≤ l → l < 2 ^ n → m.testBit l = m'.testBit l := by
      intro l h1 h2
      have a := h3 (l - 2 ^ (n - 1)) (by omega)
      have b := h3' (l - 2 ^ (n - 1)) (by omega)
      rw [show 2 ^ (n - 1) + (l - 2 ^ (n - 1)) = l by omega] at a b
      rw [← a, ← b]
    apply Nat.eq_of_testBit_eq
    intro l
    by_cases h1 : l < 2 ^ n
    · by_cases h2 : 2 ^ (n - 1) ≤ l
      · exact upper l h2 h1
      · rw [p l h1, p' l h1]
        exact upper _ (by omega) (by omega)
    · rw [testBit_of_lt hm (by omega), testBit_of_lt hm' (by omega)]
  refine ⟨fun m m' r r' hm hm' hr hr' => ⟨fun h => ?_, mono m m' r r' hm hm' hr hr'⟩, fun r hr => ?_⟩
  · rcases Nat.lt_trichotomy r r' with h' | h' | h'
    · exact h'
    · subst h'
      have := inj m m' r hm hm' hr hr'
      omega
    · have := mono m' m r' r hm' hm hr' hr h'
      omega
  · have hb : ∀ k, (valB ((List.range (2 ^ n)).map fun k => if k < 2 ^ (n - 1) then r.testBit (2 ^ (n - 1) - 1 - k) else r.testBit (k - 2 ^ (n - 1)))).testBit k =
        (decide (k < 2 ^ n) && if k < 2 ^ (n - 1) then r.testBit (2 ^ (n - 1) - 1 - k) else r.testBit (k - 2 ^ (n - 1))) := fun k => testBit_digits _ _ k
    have hp : Palindrome (2 ^ n) (valB ((List.range (2 ^ n)).map fun k =>
        if k < 2 ^ (n - 1) then r.testBit (2 ^ (n - 1) - 1 - k) else r.testBit (k - 2 ^ (n - 1)))) := by
      intro k hk
      rw [hb, hb, decide_eq_true hk, decide_eq_true (show 2 ^ n - 1 - k < 2 ^ n by omega)]
      by_cases h : k < 2 ^ (n - 1)
      · rw [if_pos h, if_neg (by omega), show 2 ^ n - 1 - k - 2 ^ (n - 1) = 2 ^ (n - 1) - 1 - k by omega]
      · rw [if_neg h, if_pos (by omega), show 2 ^ (n - 1) - 1 - (2 ^ n - 1 - k) = k - 2 ^ (n - 1) by omega]
    obtain ⟨r', h1, h2, h3⟩ := c1 _ (BF.valB_range_lt _ _) hp
    refine ⟨_, BF.valB_range_lt _ _, hp, ?_⟩
    rw [h1]
    congr 1
    apply Nat.eq_of_testBit_eq
    intro k
    by_cases hk : k < 2 ^ (n - 1)
    · rw [h3 k hk, hb, decide_eq_true (by omega), if_neg (by omega), Nat.add_sub_cancel_left]
      rfl
    · rw [testBit_of_lt h2 (by omega), testBit_of_lt hr (by omega)]

/-- For arity 0 the numbers 0 and 1 are their own indices, all others raise an exception. -/
theorem C79_index_zero (z : Int) : (z = 0 → symmetricToIndex z 0 = .ok 0) ∧ (z = 1 → symmetricToIndex z 0 = .ok 1) ∧
    (z ≠ 0 → z ≠ 1 → symmetricToIndex z 0 = .error .argTooBig) := by
  refine ⟨fun h => by subst h; rfl, fun h => by subst h; rfl, fun h1 h2 => ?_⟩
  unfold symmetricToIndex
  rw [if_pos rfl, if_neg (by omega)]

/-- the majority of three atoms: coordinates and solidity -/
example : ∃ f, Obj f ∧ f.adicity = 3 ∧ f.hasseMatrixCoordinates = .ok (8, 7) ∧ f.isSolid 3 = .ok 0 ∧ f.isSolid 2 = .error .argTooSmall := by
  have h : newTT (.list [0, 0, 0, 1, 0, 1, 1, 1]) =
      .ok { atomvals := [0, 1, 2], root := ⟨[false, false, false, true, false, true, true, true]⟩, adicity := 3, valency := 3 } := by decide
  exact ⟨_, (reach_newTT h).obj, rfl, by decide, by decide, by decide⟩

end Verif.BF
