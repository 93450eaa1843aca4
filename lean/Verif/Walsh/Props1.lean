import Verif.Walsh.Index

/-! # C29 (`walsh_function_to_index`) and C30 (coordinates of linear functions) -/

namespace Verif.W
open Verif.Py Verif.BV Verif.P
open Verif.A hiding Mat
open Verif.SG (Mat)

/-- **C29.** `walsh_function_to_index` returns the Walsh index of every linear function, with and without `trust`. -/
theorem C29_walsh_function_to_index (n w : Nat) (hn : 0 < n) (hw : w < 2 ^ n) (trust : Bool) (b : Binv)
    (hb : makeLinearBinv { walsh := some w, arity := some n } = .ok b) : walshFunctionToIndex b trust = .ok w := by
  rw [makeLinearBinv_walsh hn hw] at hb
  cases hb
  cases trust
  · exact wfi_linear hn hw
  · exact wfi_trust hw

/-- **C29.** Without `trust` a vector is accepted if and only if it is a linear function without constant term: entry `i` is the parity of the
number of common digits 1 of `i` and an index `w`.  The returned number is this index.  Every other vector whose length is a power of two
(at least 2) raises `NotWalshRowError`. -/
theorem C29_walsh_function_to_index_iff (n : Nat) (hn : 0 < n) (b : Binv) (hb : b.length = 2 ^ n) :
    (∀ w, walshFunctionToIndex b = .ok w ↔ w < 2 ^ n ∧ ∀ i < 2 ^ n,
      b.vector[i]? = some (decide ((List.range n).countP (fun k => w.testBit k && i.testBit k) % 2 = 1))) ∧
    ((∀ w, walshFunctionToIndex b ≠ .ok w) → walshFunctionToIndex b = .error .notWalshRow) := by
  have hvec : ∀ w, b = ⟨(List.range (2 ^ n)).map (linF n w)⟩ ↔ ∀ i < 2 ^ n,
      b.vector[i]? = some (decide ((List.range n).countP (fun k => w.testBit k && i.testBit k) % 2 = 1)) := by
    intro w
    constructor
    · rintro rfl i hi
      simp only [List.getElem?_map, List.getElem?_range hi, Option.map_some, linF_count]
    · intro h
      obtain ⟨v⟩ := b
      congr 1
      apply List.ext_getElem?
      intro i
      by_cases hi : i < 2 ^ n
      · rw [h i hi, List.getElem?_map, List.getElem?_range hi, Option.map_some, linF_count]
      · have hl : v.length = 2 ^ n := hb
        rw [List.getElem?_eq_none (by omega), List.getElem?_eq_none (by simpa using hi)]
  constructor
  · intro w
    rw [← hvec]
    constructor
    · intro h
      rw [wfi_eq hn b hb] at h
      by_cases hc : b = ⟨(List.range (2 ^ n)).map (linF n (act n (colB (wpVec n)) b.changes))⟩
      · rw [if_pos hc] at h
        have hlt : b.changes < 2 ^ n := by
          rw [hc, changes_map]; exact chg_lt _ _
        cases h
        exact ⟨act_lt _ le_rfl hlt, hc⟩
      · rw [if_neg hc] at h; cases h
    · rintro ⟨h1, rfl⟩
      exact wfi_linear hn h1
  · intro h
    rw [wfi_eq hn b hb] at h ⊢
    by_cases hc : b = ⟨(List.range (2 ^ n)).map (linF n (act n (colB (wpVec n)) b.changes))⟩
    · rw [if_pos hc] at h; exact absurd rfl (h _)
    · rw [if_neg hc]

/-- **C29.** Other lengths: no power of two raises a `ValueError`; of the vectors of length 1 only that with entry 0 is accepted (with index 0). -/
theorem C29_walsh_function_to_index_lengths (b : Binv) (trust : Bool) :
    ((∀ n, b.length ≠ 2 ^ n) → walshFunctionToIndex b trust = .error .valueError) ∧
    walshFunctionToIndex ⟨[false]⟩ trust = .ok 0 ∧ walshFunctionToIndex ⟨[true]⟩ = .error .intvalError := by
  refine ⟨fun h => ?_, by cases trust <;> rfl, by decide⟩
  unfold walshFunctionToIndex
  have h0 : b.eq ⟨[false]⟩ = false := by
    unfold Binv.eq
    simp only [beq_eq_false_iff_ne, ne_eq]
    intro hc
    apply h 0
    unfold Binv.length
    rw [hc]; rfl
  have h1 : isPowerOfTwo b.length = false := by
    cases hp : isPowerOfTwo b.length
    · rfl
    · obtain ⟨d, hd⟩ := isPowerOfTwo_iff.1 hp
      exact absurd hd (h d)
  simp only [h0, h1, Bool.false_eq_true, if_false]

example : walshFunctionToIndex ⟨[false, true, true, false]⟩ = .ok 3 ∧
    walshFunctionToIndex ⟨[false, true, true, true]⟩ = .error .notWalshRow ∧
    walshFunctionToIndex ⟨[true, false]⟩ = .error .notWalshRow ∧ walshFunctionToIndex ⟨[false, true, true]⟩ = .error .valueError := by
  have h := fun n hn b hb => (C29_walsh_function_to_index_iff n hn b hb)
  refine ⟨C29_walsh_function_to_index 2 3 (by decide) (by decide) false _ (by decide), ?_, ?_,
    (C29_walsh_function_to_index_lengths _ _).1 fun n => ?_⟩
  · refine (h 2 (by decide) _ rfl).2 fun w hw => ?_
    have := ((h 2 (by decide) ⟨[false, true, true, true]⟩ rfl).1 w).1 hw
    obtain ⟨h1, h2⟩ := this
    clear hw
    revert w
    decide
  · refine (h 1 (by decide) _ rfl).2 fun w hw => ?_
    have := ((h 1 (by decide) ⟨[true, false]⟩ rfl).1 w).1 hw
    obtain ⟨h1, h2⟩ := this
    clear hw
    revert w
    decide
  · show 3 ≠ 2 ^ n
    match n with
    | 0 => decide
    | 1 => decide
    | n + 2 =>
      have := Nat.two_pow_pos n
      rw [Nat.pow_succ, Nat.pow_succ]; omega

/-! ## C30 -/

theorem makeLinearBinv_parity {d w p : Nat} (hd : 0 < d) (hw : w < 2 ^ d) (hp : p < 2) :
    makeLinearBinv { walsh := some (w : Int), arity := some (d : Int), parity := some (p : Int) } =
      .ok ⟨(List.range (2 ^ d)).map fun i => linF d w i ^^ decide (p = 1)⟩ := by
  rw [makeLinearBinv_eq _ d hd rfl (Or.inl rfl), linCoords_walsh]
  have hw' : (w : Int) < 2 ^ d := by exact_mod_cast hw
  have e : (decide ((p : Int) = 1)) = decide (p = 1) := by congr 1; apply propext; omega
  rw [if_pos (by simp only [Option.getD_some]; omega)]
  simp only [Option.getD_some, if_pos hw', e]
  unfold linB linF
  congr 2
  apply List.map_congr_left
  intro i _
  congr 1
  apply bsum_congr
  intro k _
  rw [wbit_nat]

theorem lwo_eq {d w p : Nat} (hd : 0 < d) (hw : w < 2 ^ d) (hp : p < 2) (trust : Bool) :
    linearToWalshAndOddness ⟨(List.range (2 ^ d)).map fun i => linF d w i ^^ decide (p = 1)⟩ trust = .ok (w, p) := by
  unfold linearToWalshAndOddness
  have h0 : (⟨(List.range (2 ^ d)).map fun i => linF d w i ^^ decide (p = 1)⟩ : Binv).getItem 0 = .ok (decide (p = 1)) := by
    unfold Binv.getItem
    rw [List.getElem?_map, List.getElem?_range (Nat.two_pow_pos d)]
    simp [linF_zero]
  simp only [bind, Except.bind, h0, pure, Except.pure]
  have hwf : walshFunctionToIndex ⟨(List.range (2 ^ d)).map (linF d w)⟩ trust = .ok w := by
    cases trust
    · exact wfi_linear hd hw
    · exact wfi_trust hw
  have : p = 0 ∨ p = 1 := by omega
  rcases this with rfl | rfl
  · simp only [Nat.zero_ne_one, decide_false, Bool.toNat_false, ne_eq, not_true_eq_false, if_false, Bool.xor_false]
    rw [hwf]
  · simp only [decide_true, Bool.toNat_true, ne_eq, Nat.one_ne_zero, not_false_eq_true, if_true, complement_eq, List.map_map]
    have : ((fun x => !x) ∘ fun i => linF d w i ^^ true) = linF d w := by
      funext i; simp
    rw [this, hwf]

/-- **C30.** `linear_to_walsh_and_oddness` inverts `make_linear_binv(w, n, p)` (with and without `trust`). -/
theorem C30_walsh_and_oddness (n w p : Nat) (hn : 0 < n) (hw : w < 2 ^ n) (hp : p < 2) (trust : Bool) (b : Binv)
    (hb : makeLinearBinv { walsh := some w, arity := some n, parity := some p } = .ok b) :
    linearToWalshAndOddness b trust = .ok (w, p) := by
  rw [makeLinearBinv_parity hn hw hp] at hb
  cases hb
  exact lwo_eq hn hw hp trust

/-- **C30.** Conversely, the pair returned for a vector of length `2 ** n` makes this vector again, and a vector without such a pair raises
`NotWalshRowError`. -/
theorem C30_walsh_and_oddness_sound (n : Nat) (hn : 0 < n) (b : Binv) (hb : b.length = 2 ^ n) :
    (∀ w p, linearToWalshAndOddness b = .ok (w, p) → w < 2 ^ n ∧ p < 2 ∧
      makeLinearBinv { walsh := some (w : Int), arity := some (n : Int), parity := some (p : Int) } = .ok b) ∧
    ((∀ wp, linearToWalshAndOddness b ≠ .ok wp) → linearToWalshAndOddness b = .error .notWalshRow) := by
  have h2 := Nat.two_pow_pos n
  obtain ⟨v⟩ := b
  have hv : v.length = 2 ^ n := hb
  have h0 : (⟨v⟩ : Binv).getItem 0 = .ok (v[0]'(by omega)) := by
    unfold Binv.getItem
    rw [List.getElem?_eq_getElem (show 0 < v.length by omega)]
  have hcomp : (⟨v.map (!·)⟩ : Binv).length = 2 ^ n := by simpa [Binv.length] using hv
  have hlin : ∀ u : List Bool, u.length = 2 ^ n → ∀ w, walshFunctionToIndex ⟨u⟩ = .ok w → w < 2 ^ n ∧ u = (List.range (2 ^ n)).map (linF n w) := by
    intro u hu w hw
    obtain ⟨h3, h4⟩ := ((C29_walsh_function_to_index_iff n hn ⟨u⟩ hu).1 w).1 hw
    have h4 : ∀ i < 2 ^ n, u[i]? = _ := h4
    refine ⟨h3, List.ext_getElem? fun i => ?_⟩
    by_cases hi : i < 2 ^ n
    · rw [h4 i hi, List.getElem?_map, List.getElem?_range hi, Option.map_some, linF_count]
    · rw [List.getElem?_eq_none (by omega), List.getElem?_eq_none (by simpa using hi)]
  cases hf : v[0]'(by omega)
  · have he : linearToWalshAndOddness ⟨v⟩ = (walshFunctionToIndex ⟨v⟩).map fun w => (w, 0) := by
      unfold linearToWalshAndOddness
      simp only [bind, Except.bind, h0, hf, pure, Except.pure, Bool.toNat_false, ne_eq, not_true_eq_false, if_false]
      cases walshFunctionToIndex ⟨v⟩ <;> rfl
    rw [he]
    cases hw : walshFunctionToIndex ⟨v⟩ with
    | error e =>
      refine ⟨(by intro w p h; cases h), fun _ => ?_⟩
      rw [(C29_walsh_function_to_index_iff n hn ⟨v⟩ hv).2 (fun w h => by rw [hw] at h; cases h)] at hw
      cases hw; rfl
    | ok w =>
      refine ⟨fun w' p h => ?_, fun h => absurd rfl (h _)⟩
      cases h
      obtain ⟨h3, h4⟩ := hlin v hv w hw
      refine ⟨h3, by omega, ?_⟩
      rw [makeLinearBinv_parity hn h3 (by omega)]
      simp [h4]
  · have he : linearToWalshAndOddness ⟨v⟩ = (walshFunctionToIndex ⟨v.map (!·)⟩).map fun w => (w, 1) := by
      unfold linearToWalshAndOddness
      simp only [bind, Except.bind, h0, hf, pure, Except.pure, Bool.toNat_true, ne_eq, Nat.one_ne_zero, not_false_eq_true, if_true,
        complement_eq]
      cases walshFunctionToIndex ⟨v.map (!·)⟩ <;> rfl
    rw [he]
    cases hw : walshFunctionToIndex ⟨v.map (!·)⟩ with
    | error e =>
      refine ⟨(by intro w p h; cases h), fun _ => ?_⟩
      rw [(C29_walsh_function_to_index_iff n hn ⟨v.map (!·)⟩ hcomp).2 (fun w h => by rw [hw] at h; cases h)] at hw
      cases hw; rfl
    | ok w =>
      refine ⟨fun w' p h => ?_, fun h => absurd rfl (h _)⟩
      cases h
      obtain ⟨h3, h4⟩ := hlin _ hcomp w hw
      refine ⟨h3, by omega, ?_⟩
      rw [makeLinearBinv_parity hn h3 (by omega)]
      have : v = (v.map (!·)).map (!·) := by simp [Function.comp_def]
      have h4 : v.map (!·) = _ := h4
      rw [this, h4]
      simp

example : linearToWalshAndOddness ⟨[true, false, true, false]⟩ = .ok (1, 1) ∧
    linearToWalshAndOddness ⟨[true, false, false, true]⟩ true = .ok (3, 1) :=
  ⟨C30_walsh_and_oddness 2 1 1 (by decide) (by decide) (by decide) false _ (by decide),
    C30_walsh_and_oddness 2 3 1 (by decide) (by decide) (by decide) true _ (by decide)⟩

/-- **C30.** `linear_to_leader_and_quadrant` inverts `make_linear_binv(leader=l, quadrant=q, arity=n)` for every accepted pair. -/
theorem C30_leader_and_quadrant (n l q : Nat) (hn : 0 < n) (hq : q < 4) (trust : Bool) (b : Binv)
    (hb : makeLinearBinv { arity := some n, leader := some l, quadrant := some q } = .ok b) :
    linearToLeaderAndQuadrant b trust = .ok (l, q) := by
  obtain ⟨w, h1, h2⟩ := C29_leader_quadrant n l q hq hn
  rw [h2] at hb
  have hpar : (some (if q = 1 ∨ q = 3 then 1 else 0) : Option Int) = some (((if q = 1 ∨ q = 3 then 1 else 0 : Nat)) : Int) := by
    split <;> rfl
  rw [hpar] at hb
  have hp2 : (if q = 1 ∨ q = 3 then 1 else 0) < 2 := by split <;> omega
  have hw : w < 2 ^ n := by
    by_contra hc
    rw [makeLinearBinv_eq _ n hn rfl (Or.inl rfl), linCoords_walsh] at hb
    rw [if_pos (by simp only [Option.getD_some]; split <;> simp)] at hb
    simp only at hb
    rw [if_neg (by exact_mod_cast hc)] at hb
    cases hb
  have h3 := C30_walsh_and_oddness n w _ hn hw hp2 trust b hb
  unfold linearToLeaderAndQuadrant
  rw [h3]
  simp only [bind, Except.bind, pure, Except.pure]
  by_cases he : q = 0 ∨ q = 3
  · rw [if_pos he] at h1
    obtain ⟨e, h4, h5, h6⟩ := C20_index_to_evil l
    rw [h1] at h4
    cases h4
    rw [evil_iff] at h5
    rw [h5]
    simp only [ne_eq, not_true_eq_false, if_false, h6]
    rcases he with rfl | rfl <;> rfl
  · rw [if_neg he] at h1
    obtain ⟨e, h4, h5, h6⟩ := C20_index_to_odious l
    rw [h1] at h4
    cases h4
    rw [evil_iff] at h5
    have h5 : intToWeight w % 2 = 1 := by omega
    rw [h5]
    simp only [ne_eq, Nat.one_ne_zero, not_false_eq_true, if_true, h6]
    have : q = 1 ∨ q = 2 := by omega
    rcases this with rfl | rfl <;> rfl

/-- **C30.** Conversely, leader and quadrant returned for a vector of length `2 ** n` make this vector again. -/
theorem C30_leader_and_quadrant_sound (n : Nat) (hn : 0 < n) (b : Binv) (hb : b.length = 2 ^ n) (l q : Nat)
    (h : linearToLeaderAndQuadrant b = .ok (l, q)) :
    q < 4 ∧ makeLinearBinv { arity := some (n : Int), leader := some (l : Int), quadrant := some (q : Int) } = .ok b := by
  unfold linearToLeaderAndQuadrant at h
  cases hwp : linearToWalshAndOddness b with
  | error e => rw [hwp] at h; cases h
  | ok wp =>
    obtain ⟨w, p⟩ := wp
    rw [hwp] at h
    obtain ⟨h1, h2, h3⟩ := (C30_walsh_and_oddness_sound n hn b hb).1 w p hwp
    simp only [bind, Except.bind, pure, Except.pure] at h
    have key : ∀ l' q' : Nat, (q' < 4 ∧ (if q' = 0 ∨ q' = 3 then indexToEvil l' else indexToOdious l') = .ok w ∧
        p = if q' = 1 ∨ q' = 3 then 1 else 0) →
        q' < 4 ∧ makeLinearBinv { arity := some (n : Int), leader := some (l' : Int), quadrant := some (q' : Int) } = .ok b := by
      rintro l' q' ⟨hq, h5, h6⟩
      refine ⟨hq, ?_⟩
      obtain ⟨w', h7, h8⟩ := C29_leader_quadrant n l' q' hq hn
      rw [h5] at h7
      cases h7
      rw [h8, ← h3, h6]
      split <;> rfl
    have hp : p = 0 ∨ p = 1 := by omega
    have hw2 : intToWeight w % 2 = 0 ∨ intToWeight w % 2 = 1 := by omega
    rcases hw2 with hw2 | hw2
    · rw [hw2] at h
      simp only [ne_eq, not_true_eq_false, if_false] at h
      obtain ⟨i, h4, h5⟩ := (C20_evil_to_index w).1 ((evil_iff w).2 hw2)
      rw [h4] at h
      cases h
      apply key
      rcases hp with rfl | rfl
      · exact ⟨by decide, h5, rfl⟩
      · exact ⟨by decide, h5, rfl⟩
    · rw [hw2] at h
      simp only [ne_eq, Nat.one_ne_zero, not_false_eq_true, if_true] at h
      obtain ⟨i, h4, h5⟩ := (C20_odious_to_index w).1 (by rw [evil_iff]; omega)
      rw [h4] at h
      cases h
      apply key
      rcases hp with rfl | rfl
      · exact ⟨by decide, h5, rfl⟩
      · exact ⟨by decide, h5, rfl⟩

example : linearToLeaderAndQuadrant ⟨[true, false, false, true]⟩ = .ok (1, 3) ∧
    linearToLeaderAndQuadrant ⟨[false, true, false, true]⟩ = .ok (0, 2) :=
  ⟨C30_leader_and_quadrant 2 1 3 (by decide) (by decide) false _ (by decide),
    C30_leader_and_quadrant 2 0 2 (by decide) (by decide) false _ (by decide)⟩

end Verif.W
