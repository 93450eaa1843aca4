import Verif.Boolf.Props4
import Verif.Boolf.Props16
import Verif.Walsh.Props1

/-! # Model of a/sierpinski and a/make_linear_boolf; properties C132 and C133 -/

namespace Verif.BF
open Verif.Py Verif.BV Verif.P Verif.W
open Verif.A hiding Mat

/-! ## Model -/

/-- a/sierpinski/__init__.py:30-43, for the remaining rows -/
def sierpinskiLoop (orientation : String) (degree maxIndex : Nat) : List Nat → List (List Int) → Except Err (List (List Int))
  | [], result => .ok result
  | i :: is, result => do
    let rowExposet := intToExposet i
    let row := (← rawGen (rowExposet.map Int.ofNat) degree .AND).map fun b : Bool => (b.toNat : Int)
    if orientation = "tr" then sierpinskiLoop orientation degree maxIndex is (result.set i row)
    else if orientation = "tl" then sierpinskiLoop orientation degree maxIndex is (result.set i row.reverse)
    else if orientation = "br" then sierpinskiLoop orientation degree maxIndex is (result.set (maxIndex - i) row)
    else if orientation = "bl" then sierpinskiLoop orientation degree maxIndex is (result.set (maxIndex - i) row.reverse)
    else sierpinskiLoop orientation degree maxIndex is result

/-- a/sierpinski/__init__.py:8-45 -/
def sierpinski (orientation : String) (degree size : Option Int) : Except Err (List (List Int)) := do
  if orientation ∉ ["tl", "tr", "bl", "br"] then throw .argValue
  if ¬ ((degree.isSome ∧ size.isNone) ∨ (degree.isNone ∧ size.isSome)) then throw .argCombo
  let (degree, size) ← match degree, size with
    | some degree, _ => if degree > 0 then pure (degree.toNat, 1 <<< degree.toNat) else throw .argValue
    | none, size =>
      let size := size.getD 0
      if size ≥ 2 then do
        let degree ← logInt size.toNat
        pure (degree, size.toNat)
      else throw .argTooSmall
  sierpinskiLoop orientation degree (size - 1) (List.range size) (List.replicate size (List.replicate size 0))

/-- a/make_linear_boolf/__init__.py:10-21; the Walsh index and whether the function is odd -/
def linearCoords (walsh parity leader quadrant : Option Int) : Except Err (Int × Bool) :=
  match walsh with
  | some walsh =>
    let isOdd := parity.getD 0
    if leader.isNone && quadrant.isNone then
      if isOdd = 0 || isOdd = 1 then .ok (walsh, decide (isOdd ≠ 0)) else .error .argValue
    else .error .argCombo
  | none =>
    match leader, quadrant with
    | some leader, some quadrant =>
      if 0 ≤ quadrant && quadrant < 4 then
        if parity.isNone then do
          let walshIndex ← if quadrant = 0 || quadrant = 3 then indexToEvil leader else indexToOdious leader
          return ((walshIndex : Int), quadrant = 1 || quadrant = 3)
        else .error .argCombo
      else .error .argValue
    | _, _ => .error .argCombo

/-- a/make_linear_boolf/__init__.py:4-30 -/
noncomputable def makeLinearBoolf (walsh parity leader quadrant : Option Int) : Except Err Boolf := do
  let (walshIndex, isOdd) ← linearCoords walsh parity leader quadrant
  let exposet := (← mkIntval walshIndex none none).exposet
  let boolf ← new { muXo := some (exposet.map fun e : Nat => Entry.int e) }
  if ¬ isOdd then return boolf else boolf.complement

/-! ## `sierpinski` -/

theorem sierpinski_row {d i : Nat} (hi : i < 2 ^ d) : ∃ row, rawGen ((intToExposet i).map Int.ofNat) d .AND = .ok row ∧ row.length = 2 ^ d ∧
    ∀ j < 2 ^ d, row[j]? = some true ↔ i &&& j = i := by
  have hm : ∀ z ∈ (intToExposet i).map Int.ofNat, ∃ k : Nat, z = k ∧ k < d ∧ i.testBit k = true := by
    intro z hz
    rw [List.mem_map] at hz
    obtain ⟨k, hk, rfl⟩ := hz
    rw [intToExposet_eq, Nat.mem_bitIndices] at hk
    refine ⟨k, rfl, ?_, hk⟩
    have := Nat.ge_two_pow_of_testBit hk
    exact (Nat.pow_lt_pow_iff_right (a := 2) (by omega)).1 (by omega)
  obtain ⟨row, h1, h2, h3⟩ := (C63_simple_gens ((intToExposet i).map Int.ofNat) d .AND).1 (by
    intro z hz
    obtain ⟨k, rfl, h, _⟩ := hm z hz
    omega)
  refine ⟨row, h1, h2, fun j hj => (h3 j hj).trans ?_⟩
  show List.countP _ _ = 0 ↔ _
  rw [List.countP_eq_zero]
  constructor
  · intro h
    apply Nat.eq_of_testBit_eq
    intro k
    rw [Nat.testBit_and]
    by_cases hk : i.testBit k = true
    · have := fun hf => h (Int.ofNat k) (List.mem_map.2 ⟨k, by rw [intToExposet_eq, Nat.mem_bitIndices]; exact hk, rfl⟩) (decide_eq_true hf)
      have hj : j.testBit k = true := by
        by_contra hc
        apply this
        unfold FalseIn
        rw [if_neg (by simp), show (Int.ofNat k).toNat = k from rfl]
        simpa using hc
      rw [hk, hj]; rfl
    · simp [hk]
  · intro h z hz
    obtain ⟨k, rfl, _, hk⟩ := hm z hz
    rw [decide_eq_true_eq]
    unfold FalseIn
    rw [if_neg (by omega), Int.toNat_natCast]
    have h' : (i &&& j).testBit k = true := by rw [h]; exact hk
    rw [Nat.testBit_and, hk, Bool.true_and] at h'
    simp [h']

/-- the row that is written for the number `i` -/
noncomputable def sierpRow (d i : Nat) : List Int := (List.range (2 ^ d)).map fun j => if i &&& j = i then 1 else 0

theorem sierpRow_eq {d i : Nat} {row : List Bool} (h1 : row.length = 2 ^ d) (h2 : ∀ j < 2 ^ d, row[j]? = some true ↔ i &&& j = i) :
    row.map (fun b : Bool => (b.toNat : Int)) = sierpRow d i := by
  unfold sierpRow
  apply List.ext_getElem
  · simp [h1]
  · intro j hj _
    rw [List.length_map, h1] at hj
    have := h2 j hj
    rw [List.getElem?_eq_getElem (by omega), Option.some.injEq] at this
    simp only [List.getElem_map, List.getElem_range]
    split
    · next h => rw [this.2 h]; rfl
    · next h =>
      have : row[j] = false := by
        cases hb : row[j]
        · rfl
        · exact absurd (this.1 hb) h
      rw [this]; rfl

/-- the place and the row for an orientation -/
def sierpPlace (orientation : String) (m i : Nat) : Nat := if orientation = "tr" ∨ orientation = "tl" then i else m - i

noncomputable def sierpWritten (orientation : String) (d i : Nat) : List Int := if orientation = "tr" ∨ orientation = "br" then sierpRow d i else (sierpRow d i).reverse

theorem sierpinskiLoop_spec {o : String} (ho : o ∈ ["tl", "tr", "bl", "br"]) {d : Nat} : ∀ (is : List Nat), (∀ i ∈ is, i < 2 ^ d) → ∀ result : List (List Int),
    sierpinskiLoop o d (2 ^ d - 1) is result = .ok (is.foldl (fun r i => r.set (sierpPlace o (2 ^ d - 1) i) (sierpWritten o d i)) result)
  | [], _, result => rfl
  | i :: is, h, result => by
    obtain ⟨row, h1, h2, h3⟩ := sierpinski_row (h i (by simp))
    have hr := sierpRow_eq h2 h3
    rw [sierpinskiLoop, h1, List.foldl_cons]
    simp only [bind, Except.bind, hr]
    have ih := sierpinskiLoop_spec ho is (fun i hi => h i (by simp [hi]))
    simp only [List.mem_cons, List.not_mem_nil, or_false] at ho
    rcases ho with rfl | rfl | rfl | rfl
    · rw [if_neg (by decide), if_pos rfl]; exact ih _
    · rw [if_pos rfl]; exact ih _
    · rw [if_neg (by decide), if_neg (by decide), if_neg (by decide), if_pos rfl]; exact ih _
    · rw [if_neg (by decide), if_neg (by decide), if_pos rfl]; exact ih _

theorem foldl_set_spec {α : Type} (n : Nat) (p : Nat → Nat) (hp : ∀ i < n, ∀ j < n, p i = p j → i = j) (g : Nat → α) : ∀ (m : Nat), m ≤ n → ∀ (l : List α), (∀ i < m, p i < l.length) →
    ((List.range m).foldl (fun r i => r.set (p i) (g i)) l).length = l.length ∧
    ∀ i < m, ((List.range m).foldl (fun r i => r.set (p i) (g i)) l)[p i]? = some (g i)
  | 0, _, l, _ => ⟨rfl, by omega⟩
  | m + 1, hm, l, hl => by
    obtain ⟨h1, h2⟩ := foldl_set_spec n p hp g m (by omega) l (fun i hi => hl i (by omega))
    rw [List.range_succ, List.foldl_append, List.foldl_cons, List.foldl_nil]
    refine ⟨by rw [List.length_set, h1], fun i hi => ?_⟩
    rw [List.getElem?_set, h1]
    by_cases him : i = m
    · subst him
      rw [if_pos rfl, if_pos (hl i (by omega))]
    · rw [if_neg fun h => him (hp m (by omega) i (by omega) h).symm]
      exact h2 i (by omega)

/-- what is to be found at the place `i, j` of the matrix with `2 ** d` rows -/
def SierpinskiAt (orientation : String) (d i j : Nat) : Prop :=
  let i' := if orientation = "tr" ∨ orientation = "tl" then i else 2 ^ d - 1 - i
  let j' := if orientation = "tr" ∨ orientation = "br" then j else 2 ^ d - 1 - j
  ∀ k, i'.testBit k = true → j'.testBit k = true

theorem sierpinskiAt_iff {o : String} {d i j : Nat} : SierpinskiAt o d i j ↔ sierpPlace o (2 ^ d - 1) i &&& (if o = "tr" ∨ o = "br" then j else 2 ^ d - 1 - j) = sierpPlace o (2 ^ d - 1) i := by
  unfold SierpinskiAt sierpPlace
  dsimp only
  generalize (if o = "tr" ∨ o = "tl" then i else 2 ^ d - 1 - i) = i'
  generalize (if o = "tr" ∨ o = "br" then j else 2 ^ d - 1 - j) = j'
  constructor
  · intro h
    apply Nat.eq_of_testBit_eq
    intro k
    rw [Nat.testBit_and]
    cases hk : i'.testBit k
    · rfl
    · rw [h k hk]; rfl
  · intro h k hk
    rw [← h, Nat.testBit_and, Bool.and_eq_true] at hk
    exact hk.2

instance (o : String) (d i j : Nat) : Decidable (SierpinskiAt o d i j) := decidable_of_iff _ sierpinskiAt_iff.symm

theorem sierpinski_loop_total {o : String} (ho : o ∈ ["tl", "tr", "bl", "br"]) (d : Nat) : ∃ m, sierpinskiLoop o d (2 ^ d - 1) (List.range (2 ^ d)) (List.replicate (2 ^ d) (List.replicate (2 ^ d) 0)) = .ok m ∧
    m.length = 2 ^ d ∧ (∀ row ∈ m, row.length = 2 ^ d) ∧ ∀ i < 2 ^ d, ∀ j < 2 ^ d, ∃ row x, m[i]? = some row ∧ row[j]? = some x ∧ (x = 1 ∧ SierpinskiAt o d i j ∨ x = 0 ∧ ¬ SierpinskiAt o d i j) := by
  have hpos : 0 < 2 ^ d := Nat.two_pow_pos d
  have pp : ∀ i < 2 ^ d, sierpPlace o (2 ^ d - 1) (sierpPlace o (2 ^ d - 1) i) = i := by
    intro i hi
    unfold sierpPlace
    split <;> omega
  have pl : ∀ i < 2 ^ d, sierpPlace o (2 ^ d - 1) i < 2 ^ d := by
    intro i hi
    unfold sierpPlace
    split <;> omega
  obtain ⟨h1, h2⟩ := foldl_set_spec (2 ^ d) (sierpPlace o (2 ^ d - 1)) (fun i hi j hj h => by rw [← pp i hi, h, pp j hj]) (sierpWritten o d) (2 ^ d) (Nat.le_refl _)
    (List.replicate (2 ^ d) (List.replicate (2 ^ d) 0)) (fun i hi => by rw [List.length_replicate]; exact pl i hi)
  refine ⟨_, sierpinskiLoop_spec ho _ (fun i hi => List.mem_range.1 hi) _, ?_, ?_, ?_⟩
  · rw [h1, List.length_replicate]
  · intro row hrow
    obtain ⟨i, hi, rfl⟩ := List.mem_iff_getElem.1 hrow
    have hi' := hi
    rw [h1, List.length_replicate] at hi'
    have := h2 _ (pl i hi')
    rw [pp i hi', List.getElem?_eq_getElem hi, Option.some.injEq] at this
    rw [this]
    unfold sierpWritten sierpRow
    split <;> simp
  · intro i hi j hj
    have := h2 _ (pl i hi)
    rw [pp i hi] at this
    refine ⟨_, if SierpinskiAt o d i j then 1 else 0, this, ?_, ?_⟩
    · have hs := @sierpinskiAt_iff o d i j
      unfold sierpWritten sierpRow
      split
      · next h =>
        rw [if_pos h] at hs
        rw [List.getElem?_map, List.getElem?_range hj, Option.map_some]
        simp only [hs]
      · next h =>
        rw [if_neg h] at hs
        rw [List.getElem?_reverse (by simpa using hj), List.getElem?_map, List.length_map, List.length_range, List.getElem?_range (by omega), Option.map_some]
        simp only [hs]
    · by_cases h : SierpinskiAt o d i j
      · exact .inl ⟨if_pos h, h⟩
      · exact .inr ⟨if_neg h, h⟩

/-- **C132.** `sierpinski(orientation, degree=d)` is a square matrix with `2 ** d` rows.
With 'tr' the entry is 1 iff the binary exponents of the row number are among those of the column number, else 0.
With 'tl' the matrix is reflected left to right, with 'br' top to bottom, and with 'bl' both. -/
theorem C132_degree (o : String) (ho : o ∈ ["tl", "tr", "bl", "br"]) (d : Nat) (hd : 0 < d) : ∃ m, sierpinski o (some d) none = .ok m ∧
    m.length = 2 ^ d ∧ (∀ row ∈ m, row.length = 2 ^ d) ∧ ∀ i < 2 ^ d, ∀ j < 2 ^ d, ∃ row x, m[i]? = some row ∧ row[j]? = some x ∧ (x = 1 ∧ SierpinskiAt o d i j ∨ x = 0 ∧ ¬ SierpinskiAt o d i j) := by
  obtain ⟨m, h1, h2⟩ := sierpinski_loop_total ho d
  refine ⟨m, ?_, h2⟩
  unfold sierpinski
  rw [if_neg (not_not.2 ho), if_neg (by simp)]
  have hd' : (d : Int) > 0 := by omega
  simp only [bind, Except.bind, pure, Except.pure, if_pos hd', Int.toNat_natCast, Nat.one_shiftLeft]
  exact h1

/-- **C132.** The size can be given instead of the degree. -/
theorem C132_size (o : String) (d : Nat) (hd : 0 < d) : sierpinski o none (some ((2 ^ d : Nat) : Int)) = sierpinski o (some d) none := by
  unfold sierpinski
  have hd' : (d : Int) > 0 := by omega
  have hs : ((2 ^ d : Nat) : Int) ≥ 2 := by
    have : 2 ^ 1 ≤ 2 ^ d := Nat.pow_le_pow_right (by omega) hd
    omega
  simp only [bind, Except.bind, pure, Except.pure, if_pos hd', Option.getD_some, if_pos hs, Int.toNat_natCast, logInt_pow, Nat.one_shiftLeft, Option.isSome_some, Option.isNone_none, Option.isSome_none, Option.isNone_some]
  congr 2
  simp

/-- **C132.** The errors: unknown orientation; both or none of degree and size; degree not positive; size less than 2; size not a power of two. -/
theorem C132_errors (o : String) :
    (o ∉ ["tl", "tr", "bl", "br"] → ∀ d s, sierpinski o d s = .error .argValue) ∧
    (o ∈ ["tl", "tr", "bl", "br"] → sierpinski o none none = .error .argCombo ∧ (∀ d s, sierpinski o (some d) (some s) = .error .argCombo) ∧
      (∀ d ≤ 0, sierpinski o (some d) none = .error .argValue) ∧ (∀ s < 2, sierpinski o none (some s) = .error .argTooSmall) ∧
      (∀ s ≥ 2, (∀ d : Nat, s ≠ ((2 ^ d : Nat) : Int)) → sierpinski o none (some s) = .error .argValue)) := by
  unfold sierpinski
  refine ⟨fun h d s => ?_, fun h => ?_⟩
  · rw [if_pos h]
    rfl
  · have h' : ¬ (o ∉ ["tl", "tr", "bl", "br"]) := not_not.2 h
    simp only [if_neg h']
    refine ⟨rfl, fun d s => rfl, fun d hd => ?_, fun s hs => ?_, fun s hs hp => ?_⟩
    · rw [if_neg (by simp)]
      simp only [bind, Except.bind, pure, Except.pure, if_neg (show ¬ d > 0 by omega)]
      rfl
    · rw [if_neg (by simp)]
      simp only [bind, Except.bind, pure, Except.pure, Option.getD_some, if_neg (show ¬ s ≥ 2 by omega)]
      rfl
    · rw [if_neg (by simp)]
      have : logInt s.toNat = .error .argValue := by
        unfold logInt
        rw [if_neg]
        rw [isPowerOfTwo_iff]
        rintro ⟨d, hd⟩
        exact hp d (by omega)
      simp only [bind, Except.bind, Option.getD_some, if_pos hs, this]

example : sierpinski "tr" (some 2) none = .ok [[1, 1, 1, 1], [0, 1, 0, 1], [0, 0, 1, 1], [0, 0, 0, 1]] := by decide +kernel
example : sierpinski "bl" none (some 4) = .ok [[1, 0, 0, 0], [1, 1, 0, 0], [1, 0, 1, 0], [1, 1, 1, 1]] := by decide +kernel
example : SierpinskiAt "bl" 2 2 0 ∧ ¬ SierpinskiAt "bl" 2 2 1 := by decide +kernel

/-! ## `make_linear_boolf` -/

/-- the sum modulo 2 of the values of the atoms whose numbers are binary exponents of `w` -/
def linearValue (w : Nat) (a : Nat → Bool) : Bool := decide ((w.bitIndices.countP a) % 2 = 1)

theorem foldl_xor_count (l : List Nat) (a : Nat → Bool) (s : Bool) :
    (l.map fun e : Nat => Entry.int e).foldl (fun b e => b ^^ e.value a) s = (s ^^ decide (l.countP a % 2 = 1)) := by
  induction l generalizing s with
  | nil => simp
  | cons e l ih =>
    rw [List.map_cons, List.foldl_cons, ih]
    have : (Entry.int (e : Int)).value a = a e := by
      unfold Entry.value
      dsimp only
      rw [logicAbs_toNat, if_neg (by omega), Int.toNat_natCast, decide_eq_false (by omega), Bool.xor_false]
    rw [this, List.countP_cons]
    cases hae : a e
    · simp
    · rw [Bool.xor_assoc]
      congr 1
      by_cases h : l.countP a % 2 = 1
      · rw [decide_eq_true h, decide_eq_false (by simp; omega)]; rfl
      · rw [decide_eq_false h, decide_eq_true (by simp; omega)]; rfl

theorem exposet_mkIntval (w : Nat) : ∃ b, mkIntval w none none = .ok b ∧ b.exposet = w.bitIndices := by
  have key : ∀ v : List Bool, valB v = w → (⟨v⟩ : Binv).exposet = w.bitIndices := by
    rintro v rfl
    refine asc_ext (exposet_pairwise _) (List.sortedLT_iff_pairwise.1 Nat.bitIndices_sorted) fun x => ?_
    rw [mem_exposet, Nat.mem_bitIndices, testBit_valB, List.getD_eq_getElem?_getD]
    cases v[x]? with
    | none => simp
    | some b => simp
  unfold mkIntval
  rw [if_pos (by omega)]
  by_cases h : w = 0
  · subst h
    exact ⟨⟨[]⟩, rfl, key [] rfl⟩
  · refine ⟨⟨binLE w⟩, ?_, key _ (valB_binLE w)⟩
    dsimp only
    rw [if_neg (by omega), Int.toNat_natCast]

/-- **C133.** `make_linear_boolf(walsh=w, parity=p)` has the value that is the sum of the atoms in the binary exponents of `w` (plus one with parity 1). -/
theorem C133_walsh (w : Nat) (p : Option Int) (hp : p = none ∨ p = some 0 ∨ p = some 1) : ∃ f, makeLinearBoolf (some w) p none none = .ok f ∧ Reach f ∧
    ∀ r : Nat, f.getItem r = .ok (decide ((w &&& r).bitIndices.length % 2 = 1) ^^ decide (p = some 1)) := by
  have hv : ∀ r : Nat, linearValue w r.testBit = decide ((w &&& r).bitIndices.length % 2 = 1) := by
    intro r
    unfold linearValue
    rw [List.countP_eq_length_filter]
    congr 3
    refine congrArg List.length (asc_ext ((List.sortedLT_iff_pairwise.1 Nat.bitIndices_sorted).filter _) (List.sortedLT_iff_pairwise.1 Nat.bitIndices_sorted) fun x => ?_)
    rw [List.mem_filter, Nat.mem_bitIndices, Nat.mem_bitIndices, Nat.testBit_and, Bool.and_eq_true]
  obtain ⟨b, b1, b2⟩ := exposet_mkIntval w
  obtain ⟨x, x1, x2, x3⟩ := multiLoop_spec (fun f g hf hg => xor_spec hf hg) (w.bitIndices.map fun e : Nat => Entry.int e) (fun g hg => by simp at hg) _ (canon_const false)
  have hn : new { muXo := some (w.bitIndices.map fun e : Nat => Entry.int e) } = .ok x := by
    simp only [new, newMulti]
    rw [if_pos (by rfl)]
    simp only [newTT_str0, bind, Except.bind]
    exact x1
  have hx : ∀ a, x.eval a = linearValue w a := by
    intro a
    rw [x3, foldl_xor_count, eval_const, Bool.false_xor]
    rfl
  unfold makeLinearBoolf linearCoords
  rcases hp with rfl | rfl | rfl
  · refine ⟨x, ?_, x2.reach, fun r => by rw [getItem_eq x2.toSound, hx, hv]; simp⟩
    simp [bind, Except.bind, pure, Except.pure, b1, b2, hn]
  · refine ⟨x, ?_, x2.reach, fun r => by rw [getItem_eq x2.toSound, hx, hv]; simp⟩
    simp [bind, Except.bind, pure, Except.pure, b1, b2, hn]
  · obtain ⟨c, c1, c2, c3⟩ := complement_spec x2.toSound
    refine ⟨c, ?_, c2.reach, fun r => by rw [getItem_eq c2.toSound, c3, hx, hv]; simp⟩
    simp [bind, Except.bind, b1, b2, hn, c1]

/-- **C133.** With leader and quadrant the Walsh index is the evil number (quadrants 0 and 3) or odious number (1 and 2) with that index, and the parity is odd in the quadrants 1 and 3. -/
theorem C133_leader_quadrant (l q : Nat) (hq : q < 4) : ∃ w : Nat, (if q = 0 ∨ q = 3 then indexToEvil l else indexToOdious l) = .ok w ∧
    makeLinearBoolf none none (some l) (some q) = makeLinearBoolf (some w) (some (if q = 1 ∨ q = 3 then 1 else 0)) none none := by
  obtain ⟨e, he, _⟩ := C20_index_to_evil l
  obtain ⟨o, ho, _⟩ := C20_index_to_odious l
  unfold makeLinearBoolf linearCoords
  match q, hq with
  | 0, _ => exact ⟨e, by simpa using he, by simp [bind, Except.bind, pure, Except.pure, he]⟩
  | 1, _ => exact ⟨o, by simpa using ho, by simp [bind, Except.bind, pure, Except.pure, ho]⟩
  | 2, _ => exact ⟨o, by simpa using ho, by simp [bind, Except.bind, pure, Except.pure, ho]⟩
  | 3, _ => exact ⟨e, by simpa using he, by simp [bind, Except.bind, pure, Except.pure, he]⟩

/-- **C133.** Which arguments are accepted. -/
theorem C133_accepts (walsh parity leader quadrant : Option Int) : (∃ f, makeLinearBoolf walsh parity leader quadrant = .ok f) ↔
    (∃ w : Nat, walsh = some (w : Int) ∧ leader = none ∧ quadrant = none ∧ (parity = none ∨ parity = some 0 ∨ parity = some 1)) ∨
    (walsh = none ∧ parity = none ∧ ∃ l q : Nat, q < 4 ∧ leader = some (l : Int) ∧ quadrant = some (q : Int)) := by
  constructor
  · rintro ⟨f, h⟩
    unfold makeLinearBoolf at h
    cases hc : linearCoords walsh parity leader quadrant with
    | error e => rw [hc] at h; cases h
    | ok c =>
      obtain ⟨w, o⟩ := c
      rw [hc] at h
      have hw : 0 ≤ w := by
        by_contra hw
        have : mkIntval w none none = .error .intvalError := by
          unfold mkIntval
          rw [if_neg (by omega)]
        simp only [bind, Except.bind, this] at h
        cases h
      unfold linearCoords at hc
      cases walsh with
      | some w' =>
        left
        dsimp only at hc
        split at hc
        · next hn =>
          split at hc
          · next hp =>
            cases hc
            rw [Bool.and_eq_true, Option.isNone_iff_eq_none, Option.isNone_iff_eq_none] at hn
            refine ⟨w.toNat, by rw [Int.toNat_of_nonneg hw], hn.1, hn.2, ?_⟩
            cases parity with
            | none => exact .inl rfl
            | some p => simpa using hp
          · cases hc
        · cases hc
      | none =>
        right
        dsimp only at hc
        split at hc
        · next l q =>
          split at hc
          · next hq =>
            split at hc
            · next hp =>
              rw [Option.isNone_iff_eq_none] at hp
              rw [Bool.and_eq_true, decide_eq_true_eq, decide_eq_true_eq] at hq
              have hl : 0 ≤ l := by
                by_contra hl
                have := C20_negative l (by omega)
                rw [this.1, this.2.1, ite_self] at hc
                cases hc
              exact ⟨rfl, hp, l.toNat, q.toNat, by omega, by rw [Int.toNat_of_nonneg hl], by rw [Int.toNat_of_nonneg hq.1]⟩
            · cases hc
          · cases hc
        · cases hc
  · rintro (⟨w, rfl, rfl, rfl, hp⟩ | ⟨rfl, rfl, l, q, hq, rfl, rfl⟩)
    · obtain ⟨f, h, _⟩ := C133_walsh w parity hp
      exact ⟨f, h⟩
    · obtain ⟨w, _, h⟩ := C133_leader_quadrant l q hq
      obtain ⟨f, h', _⟩ := C133_walsh w (some (if q = 1 ∨ q = 3 then 1 else 0)) (by split <;> simp)
      exact ⟨f, h.trans h'⟩

/-- **C133.** The table of values is that of `make_linear_binv` for any arity that is big enough. -/
theorem C133_make_linear_binv (n w : Nat) (hn : 0 < n) (hw : w < 2 ^ n) (p : Option Int) (hp : p = none ∨ p = some 0 ∨ p = some 1) (f : Boolf) (hf : makeLinearBoolf (some w) p none none = .ok f)
    (b : Binv) (hb : makeLinearBinv { walsh := some w, arity := some n, parity := p } = .ok b) : b.length = 2 ^ n ∧ ∀ i < 2 ^ n, ∃ x, b.vector[i]? = some x ∧ f.getItem i = .ok x := by
  obtain ⟨f', f1, _, f2⟩ := C133_walsh w p hp
  obtain ⟨b', b1, _, b2, b3⟩ := C29_linear n w hn hw p hp
  rw [hf] at f1
  rw [hb] at b1
  cases f1
  cases b1
  refine ⟨b2, fun i hi => ⟨_, b3 i hi, ?_⟩⟩
  rw [f2]
  congr 3
  rw [List.countP_eq_length_filter]
  refine congrArg (fun l : List Nat => l.length % 2 = 1) (asc_ext (List.sortedLT_iff_pairwise.1 Nat.bitIndices_sorted) (List.pairwise_lt_range.filter _) fun x => ?_)
  rw [List.mem_filter, Nat.mem_bitIndices, Nat.testBit_and, List.mem_range]
  constructor
  · intro h
    refine ⟨?_, h⟩
    rw [Bool.and_eq_true] at h
    have := Nat.ge_two_pow_of_testBit h.1
    exact (Nat.pow_lt_pow_iff_right (a := 2) (by omega)).1 (by omega)
  · exact fun h => h.2

example : ∃ f, makeLinearBoolf (some 5) (some 1) none none = .ok f ∧ f.getItem 4 = .ok false ∧ f.getItem 5 = .ok true := by
  obtain ⟨f, h, _, h'⟩ := C133_walsh 5 (some 1) (by simp)
  exact ⟨f, h, by rw [show (4 : Nat) = 4 from rfl, h']; decide +kernel, by rw [h']; decide +kernel⟩
example : ∃ f, makeLinearBoolf none none (some 3) (some 2) = .ok f := (C133_accepts _ _ _ _).2 (.inr ⟨rfl, rfl, 3, 2, by decide, rfl, rfl⟩)

end Verif.BF
