import Verif.Boolf.Props2

/-!
# Properties C63 (simple generators), C64 (tables given to the constructor), C65 (combinations of arguments)
-/

namespace Verif.BF
open Verif.Py Verif.BV Verif.P Verif.W
open Verif.A hiding Mat

/-! ## C63 -/

/-- the atom `z`, or the negation of the atom `~z` if `z` is negative, is false in row `i` -/
def FalseIn (i : Nat) (z : Int) : Prop := if z < 0 then i.testBit (-z - 1).toNat = true else i.testBit z.toNat = false

instance (i : Nat) (z : Int) : Decidable (FalseIn i z) := by unfold FalseIn; infer_instance

/-- the meaning of the operators for `m` literals, of which `n` are false -/
def Op.means (op : Op) (m n : Nat) : Prop :=
  match op with
  | .AND => n = 0
  | .XAND => Even n
  | .OR => n < m
  | .XOR => Odd (m - n)
  | .EQ => 0 < m ∧ (n = 0 ∨ n = m)
  | .SAND => n = 1
  | .GAND => n ≤ 1
  | .ESAND => n ≤ 1 ∧ (Odd m → n = 1)
  | .OSAND => n ≤ 1 ∧ (Even m → n = 1)

theorem logicAbs_toNat (z : Int) : (logicAbs z).toNat = if z < 0 then (-z - 1).toNat else z.toNat := by
  unfold logicAbs inv
  split <;> rfl

theorem falseIn_iff (i : Nat) (z : Int) : FalseIn i z ↔ (i.testBit (logicAbs z).toNat ^^ decide (z < 0)) = false := by
  unfold FalseIn
  rw [logicAbs_toNat]
  by_cases h : z < 0
  · rw [if_pos h, if_pos h, decide_eq_true h]; simp
  · rw [if_neg h, if_neg h, decide_eq_false h]; simp

theorem countP_falseIn (A : List Int) (i : Nat) : A.countP (fun z => decide (FalseIn i z)) = (picks A i).countP (fun b => !b) := by
  unfold picks
  rw [List.countP_map]
  apply List.countP_congr
  intro z _
  rw [decide_eq_true_eq, falseIn_iff]
  simp

theorem bsum_countP (l : List Bool) : bsum l + l.countP (fun b => !b) = l.length := by
  unfold bsum
  induction l with
  | nil => rfl
  | cons b l ih => cases b <;> simp at * <;> omega

theorem opAnd_iff (l : List Bool) : opAnd l = true ↔ l.countP (fun b => !b) = 0 := by
  unfold opAnd
  rw [List.countP_eq_zero, Bool.not_eq_true', ← Bool.not_eq_true, List.contains_iff_mem]
  constructor
  · intro h b hb hc
    cases b
    · exact h hb
    · cases hc
  · intro h hc; exact h false hc rfl

theorem opOr_iff (l : List Bool) : opOr l = true ↔ l.countP (fun b => !b) < l.length := by
  unfold opOr
  rw [List.contains_iff_mem]
  constructor
  · intro h
    apply lt_of_le_of_ne List.countP_le_length
    rw [Ne, List.countP_eq_length]
    intro hc
    exact absurd (hc true h) (by simp)
  · intro h
    by_contra hc
    have : l.countP (fun b => !b) = l.length := by
      rw [List.countP_eq_length]
      intro b hb
      cases b
      · rfl
      · exact absurd hb hc
    omega

theorem opSand_iff (l : List Bool) : opSand l l.length = true ↔ l.countP (fun b => !b) = 1 := by
  unfold opSand
  rw [decide_eq_true_eq]
  have := bsum_countP l
  omega

theorem opGand_iff (l : List Bool) : opGand l l.length = true ↔ l.countP (fun b => !b) ≤ 1 := by
  unfold opGand
  rw [Bool.or_eq_true, opAnd_iff, opSand_iff]
  omega

theorem criterion_iff (op : Op) {l : List Bool} (hl : l ≠ []) : op.criterion l l.length = true ↔ op.means l.length (l.countP fun b => !b) := by
  have h := bsum_countP l
  have hpos : 0 < l.length := List.length_pos_iff.2 hl
  cases op with
  | AND => exact opAnd_iff l
  | XAND => simp only [Op.criterion, Op.means, decide_eq_true_eq, Nat.even_iff]; omega
  | OR => exact opOr_iff l
  | XOR => simp only [Op.criterion, Op.means, decide_eq_true_eq, Nat.odd_iff]; omega
  | EQ =>
    simp only [Op.criterion, Op.means, Bool.or_eq_true, opAnd_iff, Bool.not_eq_true']
    rw [← Bool.not_eq_true, opOr_iff]
    omega
  | SAND => exact opSand_iff l
  | GAND => exact opGand_iff l
  | ESAND =>
    simp only [Op.criterion, Op.means, Nat.odd_iff]
    split
    · rw [opSand_iff]; omega
    · rw [opGand_iff]; omega
  | OSAND =>
    simp only [Op.criterion, Op.means, Nat.even_iff]
    split
    · rw [opGand_iff]; omega
    · rw [opSand_iff]; omega

theorem default_iff (op : Op) : op.default = true ↔ op.means 0 0 := by
  cases op <;> simp [Op.default, Op.means]

/-- **C63.** The truth tables of the simple operators. -/
theorem C63_simple_gens (A : List Int) (n : Nat) (op : Op) :
    ((∀ z ∈ A, z < n ∧ -z - 1 < n) → ∃ t, rawGen A n op = .ok t ∧ t.length = 2 ^ n ∧
      ∀ i < 2 ^ n, t[i]? = some true ↔ op.means A.length (A.countP fun z => decide (FalseIn i z))) ∧
    ((∃ z ∈ A, (n : Int) ≤ z ∨ (n : Int) ≤ -z - 1) → rawGen A n op = .error .assertion) := by
  have hlt : ∀ z : Int, (logicAbs z).toNat < n ↔ z < n ∧ -z - 1 < n := by
    intro z; rw [logicAbs_toNat]; split <;> omega
  constructor
  · intro hA
    refine ⟨_, (rawGen_eq A n op).1 (fun z hz => (hlt z).2 (hA z hz)), by simp, fun i hi => ?_⟩
    rw [List.getElem?_map, List.getElem?_range hi, Option.map_some, Option.some.injEq]
    have hlen : (picks A i).length = A.length := by simp [picks]
    by_cases h : A = []
    · subst h
      rw [if_pos rfl, default_iff]; rfl
    · rw [if_neg h, countP_falseIn, ← hlen, criterion_iff]
      intro hc
      rw [hc] at hlen
      exact h (List.length_eq_zero_iff.1 hlen.symm)
  · rintro ⟨z, hz, h⟩
    refine (rawGen_eq A n op).2 ⟨z, hz, ?_⟩
    have := hlt z
    omega

example : (∀ z ∈ ([0, -3, 1] : List Int), z < (3 : Nat) ∧ -z - 1 < (3 : Nat)) ∧
    rawGen [0, -3, 1] 3 .SAND = .ok [false, true, true, false, false, false, false, true] := by decide

/-! ## C64 -/

theorem ttBinv_list (v : List Bool) : ttBinv (.list (v.map fun b => (b.toNat : Int))) none = .ok ⟨v⟩ := mk_list v

/-- **C64.** The ways to write a table are equivalent: list, string (with any blanks), Binv, integer with arity. -/
theorem C64_formats (v : List Bool) (av : Option (List Int)) (skip : Bool) (s : List Char)
    (hs : s.filter (· ≠ ' ') = v.map fun b => if b then '1' else '0') :
    newTT (.list (v.map fun b => (b.toNat : Int))) av none skip = newTT (.binv ⟨v⟩) av none skip ∧
    newTT (.str s) av none skip = newTT (.binv ⟨v⟩) av none skip ∧
    ∀ n : Nat, v.length = 2 ^ n → newTT (.int (valB v)) av (some (n : Int)) skip = newTT (.binv ⟨v⟩) av none skip := by
  have key : ∀ b : Binv, ttBinv (.binv b) none = .ok b := fun b => mk_binv b
  refine ⟨?_, ?_, fun n hn => ?_⟩
  · unfold newTT
    simp only
    rw [ttBinv_list, key]
  · have : ttBinv (.str s) none = .ok ⟨v⟩ := by
      have h1 : ∀ v : List Bool, (v.map fun b => if b then '1' else '0').mapM charBit = .ok v := by
        intro v
        induction v with
        | nil => rfl
        | cons b v ih => rw [List.map_cons, List.mapM_cons, ih]; cases b <;> rfl
      show mkVector (.str s) = _
      unfold mkVector
      simp only [hs, h1]
    unfold newTT
    simp only
    rw [this, key]
  · have : ttBinv (.int (valB v)) (some (n : Int)) = .ok ⟨v⟩ := by
      unfold ttBinv
      simp only
      rw [if_neg (by omega), Int.toNat_natCast, shl_eq, ← hn]
      have := C26_intval_roundtrip ⟨v⟩ (by unfold Binv.length; simp only; rw [hn]; exact (Nat.two_pow_pos n).ne')
      rw [intval_eq] at this
      exact this
    unfold newTT
    simp only
    rw [this, key]

theorem newTT_binv (v : List Bool) (av : Option (List Int)) : newTT (.binv ⟨v⟩) av = ttDeflated ⟨v⟩ av := by
  unfold newTT
  simp only [ttBinv, mk_binv, bind, Except.bind, Bool.false_eq_true, if_false]

/-- **C64.** Different non-negative atoms and a table of the right length are accepted.  Digit `k` of an index belongs to the atom `L[k]`; the list `L`
is the list of atoms if that is ascending; in general the atom of rank `k` stands at place `j` of the given list iff `L[k]` is the atom of rank `j`. -/
theorem C64_accepts (v : List Bool) (A : List Nat) (hd : A.Nodup) (hl : v.length = 2 ^ A.length) :
    ∃ f L, newTT (.binv ⟨v⟩) (some (A.map Int.ofNat)) = .ok f ∧ Reach f ∧ L.Perm A ∧ ReadOrder A L ∧ (A.Pairwise (· < ·) → L = A) ∧
      ∀ key idx : Nat, idx < 2 ^ A.length → (∀ (k x : Nat), L[k]? = some x → idx.testBit k = key.testBit x) →
        v[idx]?.map Except.ok = some (f.getItem key) := by
  obtain ⟨L, hL, hp⟩ := readOrder_exists hd
  have hto : (A.map Int.ofNat).map Int.toNat = A := by rw [List.map_map]; exact List.map_id _
  obtain ⟨f, f1, f2, f3⟩ := ttDeflated_some (b := ⟨v⟩) (A := A.map Int.ofNat) (L := L)
    (List.Nodup.map (f := Int.ofNat) (fun x y h => by simpa using h) hd) (by simp) (by simpa [Binv.length] using hl) (by rwa [hto])
  have f1' : newTT (.binv ⟨v⟩) (some (A.map Int.ofNat)) = .ok f := by rw [newTT_binv]; exact f1
  refine ⟨f, L, f1', reach_newTT f1', hp, hL, fun hasc => hL.unique (readOrder_sorted hd (sorted_eq_self hasc).symm), fun key idx hi hk => ?_⟩
  have : valB (L.map key.testBit) = idx := by
    apply Nat.eq_of_testBit_eq
    intro k
    rw [testBit_valB_map]
    by_cases h : k < L.length
    · rw [List.getElem?_eq_getElem h, Option.map_some, Option.getD_some, hk k _ (List.getElem?_eq_getElem h)]
    · rw [List.getElem?_eq_none (by omega), testBit_of_lt hi (by rw [← hp.length_eq]; omega)]; rfl
  rw [getItem_eq f2.toSound, f3, this, List.getD_eq_getElem?_getD, List.getElem?_eq_getElem (by omega)]; rfl

theorem readOrder_201 : ReadOrder [2, 0, 1] [1, 2, 0] := by
  have hs : sorted [2, 0, 1] = [0, 1, 2] := by decide
  unfold ReadOrder
  rw [hs]
  refine ⟨rfl, fun k j hk h => ?_⟩
  have : j < 3 := by
    by_contra hc
    rw [List.getElem?_eq_none (show ([2, 0, 1] : List Nat).length ≤ j by simpa using hc)] at h
    rw [List.getElem?_eq_getElem (show k < ([0, 1, 2] : List Nat).length by simpa using hk)] at h
    cases h
  have hk' : k < 3 := hk
  match k, j, hk', this with
  | 0, 0, _, _ => simp at h
  | 0, 1, _, _ => rfl
  | 0, 2, _, _ => simp at h
  | 1, 0, _, _ => simp at h
  | 1, 1, _, _ => simp at h
  | 1, 2, _, _ => rfl
  | 2, 0, _, _ => rfl
  | 2, 1, _, _ => simp at h
  | 2, 2, _, _ => simp at h

/-- **C64.** The order of digits is not always that of the given atoms: with the atoms `[2, 0, 1]` digit 0 belongs to the atom 1. -/
theorem C64_order_of_digits : ∃ f, newTT (.list [0, 1, 0, 1, 0, 1, 0, 1]) (some [2, 0, 1]) = .ok f ∧ f = setUnary 1 := by
  have hL := readOrder_201
  obtain ⟨f, f1, f2, f3⟩ := ttDeflated_some (b := ⟨[false, true, false, true, false, true, false, true]⟩) (A := [2, 0, 1]) (L := [1, 2, 0])
    (by decide) (by decide) rfl hL
  refine ⟨f, ?_, ?_⟩
  · rw [show ([0, 1, 0, 1, 0, 1, 0, 1] : List Int) = [false, true, false, true, false, true, false, true].map fun b => (b.toNat : Int) from rfl,
      (C64_formats _ _ _ "01010101".toList (by decide)).1, newTT_binv, f1]
  · apply f2.ext (canon_unary 1)
    intro a
    rw [f3, eval_unary]
    simp only [List.map_cons, List.map_nil]
    show _ = (a 1 ^^ false)
    cases a 0 <;> cases a 1 <;> cases a 2 <;> rfl

/-- all entries are the same -/
def AllSame (v : List Bool) : Prop := (∀ b ∈ v, b = false) ∨ ∀ b ∈ v, b = true

theorem weight_iff (v : List Bool) : ((⟨v⟩ : Binv).weight = 0 ∨ (⟨v⟩ : Binv).weight = (⟨v⟩ : Binv).length) ↔ AllSame v :=
  or_congr weight_zero weight_full

theorem const_head {v : List Bool} (h1 : v ≠ []) (h3 : AllSame v) : decide ((⟨v⟩ : Binv).weight ≠ 0) = v.headD false := by
  cases v with
  | nil => exact absurd rfl h1
  | cons b w =>
    rw [List.headD_cons]
    rcases h3 with h | h
    · have h0 : (⟨b :: w⟩ : Binv).weight = 0 := weight_zero.2 h
      rw [h b (by simp)] at h0 ⊢
      rw [h0]; rfl
    · have h0 : (⟨b :: w⟩ : Binv).weight = (b :: w).length := weight_full.2 h
      rw [h b (by simp), decide_eq_true_eq]
      rw [h b (by simp), List.length_cons] at h0
      omega

/-- **C64.** All that can happen for a table with atoms. -/
theorem C64_with_atoms (v : List Bool) (A : List Int) :
    (¬ A.Nodup → newTT (.binv ⟨v⟩) (some A) = .error .atomvalsNotUnique) ∧
    (A.Nodup → v.length ≠ 2 ^ A.length → newTT (.binv ⟨v⟩) (some A) = .error .sarityVectorMismatch) ∧
    (A.Nodup → v.length = 2 ^ A.length → AllSame v → newTT (.binv ⟨v⟩) (some A) = .ok (setConstant (v.headD false))) ∧
    (A.Nodup → v.length = 2 ^ A.length → ¬ AllSame v → (∃ x ∈ A, x < 0) → newTT (.binv ⟨v⟩) (some A) = .error .atomvalNegative) := by
  rw [newTT_binv]
  unfold ttDeflated ttCheck
  simp only [bind, Except.bind, pure, Except.pure]
  refine ⟨fun h => ?_, fun h1 h2 => ?_, fun h1 h2 h3 => ?_, fun h1 h2 h3 h4 => ?_⟩
  · rw [if_neg (fun hc => h (dedup_length_iff.1 hc))]
  · rw [if_pos (dedup_length_iff.2 h1), if_neg (show ¬ (⟨v⟩ : Binv).length = _ from h2)]
  · have hpos : (⟨v⟩ : Binv).length > 0 := by unfold Binv.length; simp only; rw [h2]; exact Nat.two_pow_pos _
    rw [if_pos (dedup_length_iff.2 h1), if_pos (show (⟨v⟩ : Binv).length = _ from h2), if_pos hpos]
    simp only
    rw [if_pos ((weight_iff v).2 h3)]
    refine congrArg Except.ok (congrArg setConstant ?_)
    exact const_head (List.length_pos_iff.1 hpos) h3
  · have hpos : (⟨v⟩ : Binv).length > 0 := by unfold Binv.length; simp only; rw [h2]; exact Nat.two_pow_pos _
    rw [if_pos (dedup_length_iff.2 h1), if_pos (show (⟨v⟩ : Binv).length = _ from h2), if_pos hpos]
    simp only
    rw [if_neg (fun hc => h3 ((weight_iff v).1 hc))]
    obtain ⟨x, hx, hx0⟩ := h4
    obtain ⟨m, m1, m2, m3⟩ := pyMin_ok (l := A) (by rintro rfl; cases hx)
    have := m3 x hx
    unfold ttAtoms
    simp only [m1]
    rw [if_neg (by omega)]

/-- **C64.** All that can happen for a table without atoms: the atoms are `0 .. n-1`. -/
theorem C64_without_atoms (v : List Bool) :
    (v = [] → newTT (.binv ⟨v⟩) = .error .argValue) ∧
    (v ≠ [] → AllSame v → newTT (.binv ⟨v⟩) = .ok (setConstant (v.headD false))) ∧
    (¬ AllSame v → (∀ n, v.length ≠ 2 ^ n) → newTT (.binv ⟨v⟩) = .error .argValue) ∧
    (∀ n, v.length = 2 ^ n → newTT (.binv ⟨v⟩) = newTT (.binv ⟨v⟩) (some ((List.range n).map Int.ofNat))) := by
  refine ⟨?_, ?_, ?_, ?_⟩
  · rintro rfl
    rw [newTT_binv]; rfl
  · intro h1 h3
    rw [newTT_binv]
    unfold ttDeflated ttCheck
    simp only [bind, Except.bind, pure, Except.pure]
    have hpos : (⟨v⟩ : Binv).length > 0 := List.length_pos_iff.2 h1
    rw [if_pos hpos]
    simp only
    rw [if_pos ((weight_iff v).2 h3)]
    refine congrArg Except.ok (congrArg setConstant ?_)
    exact const_head h1 h3
  · intro h3 hn
    rw [newTT_binv]
    unfold ttDeflated ttCheck
    simp only [bind, Except.bind, pure, Except.pure]
    have hne : v ≠ [] := by rintro rfl; exact h3 (.inl (by simp))
    have hpos : (⟨v⟩ : Binv).length > 0 := List.length_pos_iff.2 hne
    rw [if_pos hpos]
    simp only
    rw [if_neg (fun hc => h3 ((weight_iff v).1 hc))]
    unfold ttAtoms logInt
    simp only
    rw [if_neg (fun hc => by obtain ⟨n, hn'⟩ := isPowerOfTwo_iff.1 hc; exact hn n hn')]
  · intro n hn
    rw [newTT_binv, newTT_binv]
    obtain ⟨f, f1, f2, f3⟩ := ttDeflated_none (b := ⟨v⟩) hn
    have hto : ((List.range n).map Int.ofNat).map Int.toNat = List.range n := by rw [List.map_map]; exact List.map_id _
    obtain ⟨g, g1, g2, g3⟩ := ttDeflated_some (b := ⟨v⟩) (A := (List.range n).map Int.ofNat) (L := List.range n)
      (List.Nodup.map (f := Int.ofNat) (fun x y h => by simpa using h) List.nodup_range) (by simp) (by simpa [Binv.length] using hn) (by
        rw [hto]; exact readOrder_sorted List.nodup_range (sorted_eq_self List.pairwise_lt_range).symm)
    rw [f1, g1, f2.ext g2 (fun a => by rw [f3, g3])]

example : ([2, 0, 1] : List Nat).Nodup ∧ ([false, true, false, false, true, false, true, true] : List Bool).length = 2 ^ ([2, 0, 1] : List Nat).length ∧
    ¬ AllSame [false, true, false, false, true, false, true, true] := by
  refine ⟨by decide, rfl, ?_⟩
  unfold AllSame
  decide

/-! ## C65 -/

/-- no infinite loop -/
def Ends {α : Type} (x : Except Err α) : Prop := x ≠ .error .diverges

theorem Ends.bind {α β : Type} {x : Except Err α} {k : α → Except Err β} (hx : Ends x) (hk : ∀ y, x = .ok y → Ends (k y)) : Ends (x >>= k) := by
  cases x with
  | error e => exact fun h => hx (by cases h; rfl)
  | ok y => exact hk y rfl

theorem ends_ok {α : Type} (y : α) : Ends (Except.ok y) := fun h => by cases h

theorem ends_mk (a : BV.Args) : Ends (BV.mk a) := by
  have hmap : ∀ {α : Type} (g : α → Except Err Bool), (∀ x, Ends (g x)) → ∀ l : List α, Ends (l.mapM g) := by
    intro α g hg l
    induction l with
    | nil => exact ends_ok _
    | cons x l ih =>
      rw [List.mapM_cons]
      exact (hg x).bind fun y _ => ih.bind fun z _ => ends_ok _
  have hset : ∀ (l : List Int) (v : List Bool), Ends (setAll l v) := by
    intro l
    induction l with
    | nil => exact fun v => ends_ok _
    | cons i l ih =>
      intro v
      unfold setAll
      cases hs : setTrue v i with
      | ok w => exact ih w
      | error e =>
        intro hc
        unfold setTrue at hs
        cases hc
        split at hs
        · split at hs <;> cases hs
        · split at hs <;> cases hs
  have hexp : ∀ (l : List Int) (n : Int), Ends (fromExposet l n) := by
    intro l n hc
    unfold fromExposet at hc
    have := hset l (List.replicate n.toNat false)
    cases h : setAll l (List.replicate n.toNat false) with
    | error e => rw [h] at hc; simp only at hc; cases hc; exact this h
    | ok v => rw [h] at hc; cases hc
  have hmax : ∀ l : List Int, Ends (pyMax l) := by
    intro l; cases l <;> (unfold pyMax; intro h; cases h)
  have hmx : ∀ (l : List Int) (k : Int → Except Err Binv), (∀ m, Ends (k m)) →
      Ends (match pyMax l with | .error e => .error e | .ok m => k m) := by
    intro l k hk
    have := hmax l
    cases h : pyMax l with
    | error e => intro hc; simp only at hc; cases hc; exact this h
    | ok m => exact hk m
  unfold BV.mk
  split
  · split
    · unfold mkVector
      split
      · rename_i l _
        have := hmap entryBit (fun x h => by unfold entryBit at h; split at h; cases h; split at h <;> cases h) l
        cases h : l.mapM entryBit with
        | error e => intro hc; simp only at hc; cases hc; exact this h
        | ok v => exact ends_ok _
      · rename_i s _
        have := hmap charBit (fun x h => by unfold charBit at h; split at h; cases h; split at h <;> cases h) (s.filter (· ≠ ' '))
        cases h : (s.filter (· ≠ ' ')).mapM charBit with
        | error e => intro hc; simp only at hc; cases hc; exact this h
        | ok v => exact ends_ok _
      · exact ends_ok _
    · intro h; cases h
  · unfold mkIntval
    split
    · split
      · split <;> exact ends_ok _
      · split
        · exact ends_ok _
        · intro h; cases h
      · exact ends_ok _
    · intro h; cases h
  · unfold mkExposet
    split
    · split
      · exact ends_ok _
      · exact hmx _ _ fun m => hexp _ _
    · split
      · refine hmx _ _ fun m => ?_
        split
        · exact hexp _ _
        · intro h; cases h
      · exact hexp _ _
    · exact hmx _ _ fun m => hexp _ _
  · intro h; cases h

theorem ends_ttBinv (tt : TT) (ar : Option Int) : Ends (ttBinv tt ar) := by
  unfold ttBinv
  split
  · exact ends_mk _
  · exact ends_mk _
  · exact ends_mk _
  · intro h; cases h
  · split
    · intro h; cases h
    · exact ends_mk _
  · intro h; cases h

theorem ends_ttDeflated (v : List Bool) (av : Option (List Int)) : Ends (ttDeflated ⟨v⟩ av) := by
  rw [← newTT_binv]
  cases av with
  | some A =>
    have h := C64_with_atoms v A
    by_cases hd : A.Nodup
    · by_cases hl : v.length = 2 ^ A.length
      · by_cases hs : AllSame v
        · rw [h.2.2.1 hd hl hs]; exact ends_ok _
        · by_cases hn : ∃ x ∈ A, x < 0
          · rw [h.2.2.2 hd hl hs hn]; intro h; cases h
          · push Not at hn
            obtain ⟨L, hL, _⟩ := readOrder_exists (nodup_toNat hd hn)
            obtain ⟨f, f1, _⟩ := ttDeflated_some (b := ⟨v⟩) hd hn hl hL
            rw [newTT_binv, f1]; exact ends_ok _
      · rw [h.2.1 hd hl]; intro h; cases h
    · rw [h.1 hd]; intro h; cases h
  | none =>
    have h := C64_without_atoms v
    by_cases hp : ∃ n, v.length = 2 ^ n
    · obtain ⟨n, hn⟩ := hp
      obtain ⟨f, f1, _⟩ := ttDeflated_none (b := ⟨v⟩) hn
      rw [newTT_binv, f1]; exact ends_ok _
    · push Not at hp
      by_cases hv : v = []
      · rw [h.1 hv]; intro h; cases h
      · by_cases hs : AllSame v
        · rw [h.2.1 hv hs]; exact ends_ok _
        · rw [h.2.2.1 hs hp]; intro h; cases h

theorem ends_ttSkip (b : Binv) (av : Option (List Int)) : Ends (ttSkip b av) := by
  have hcheck : Ends (ttCheck b av) := by
    unfold ttCheck
    split
    · split
      · split
        · split <;> (intro h; cases h)
        · intro h; cases h
      · intro h; cases h
    · split <;> (intro h; cases h)
  unfold ttSkip
  refine hcheck.bind fun u hu => ?_
  cases u
  have hatoms : Ends (ttAtoms b av) := by
    cases av with
    | none =>
      unfold ttAtoms logInt
      simp only
      split
      · next h => split at h <;> cases h; intro h; cases h
      · intro h; cases h
    | some A =>
      unfold ttCheck at hu
      simp only at hu
      split at hu
      · next hd =>
        split at hu
        · next hl =>
          have hA := dedup_length_iff.1 hd
          unfold ttAtoms
          simp only
          cases hm : pyMin A with
          | error e =>
            intro hc
            cases A with
            | nil => unfold pyMin at hm; cases hm; cases hc
            | cons x A => unfold pyMin at hm; cases hm
          | ok m =>
            simp only
            by_cases hge : m ≥ 0
            · rw [if_pos hge]
              have hne : A ≠ [] := by rintro rfl; cases hm
              obtain ⟨m', m1, m2, m3⟩ := pyMin_ok hne
              rw [hm] at m1; cases m1
              have h0 : ∀ x ∈ A, 0 ≤ x := fun x hx => le_trans hge (m3 x hx)
              obtain ⟨L, hL, _⟩ := readOrder_exists (nodup_toNat hA h0)
              obtain ⟨c, c1, _⟩ := reorder_spec (b := b) (nodup_toNat hA h0) (by simpa using hl) hL
              rw [c1]; exact ends_ok _
            · rw [if_neg hge]; intro h; cases h
        · cases hu
      · cases hu
  refine hatoms.bind fun cB hcB => ?_
  obtain ⟨c, B⟩ := cB
  obtain ⟨hB, hl⟩ := ttAtoms_spec hu hcB
  obtain ⟨g, g1, _⟩ := ttDeflated_none (b := c) hl
  refine Ends.bind ?_ fun m _ => ?_
  · cases B <;> (unfold pyMaxNat; intro h; cases h)
  · simp only [g1, bind, Except.bind]
    exact ends_ok _

theorem ends_newTT (tt : TT) (av : Option (List Int)) (ar : Option Int) (skip : Bool) : Ends (newTT tt av ar skip) := by
  have key : ∀ tt' : TT, Ends (do let binv ← ttBinv tt' ar; if skip then ttSkip binv av else ttDeflated binv av) := by
    intro tt'
    refine (ends_ttBinv tt' ar).bind fun b _ => ?_
    cases skip with
    | true => exact ends_ttSkip b av
    | false => exact ends_ttDeflated b.vector av
  cases tt with
  | bool b =>
    unfold newTT
    simp only
    split <;> (intro h; cases h)
  | list l => exact key (.list l)
  | str s => exact key (.str s)
  | binv b => exact key (.binv b)
  | int n => exact key (.int n)

theorem length_setAll {l : List Int} {v w : List Bool} (h : setAll l v = .ok w) : w.length = v.length := by
  induction l generalizing v with
  | nil => unfold setAll at h; cases h; rfl
  | cons i l ih =>
    unfold setAll at h
    cases hs : setTrue v i with
    | error e => rw [hs] at h; cases h
    | ok u =>
      rw [hs] at h
      rw [ih h]
      unfold setTrue at hs
      split at hs
      · split at hs
        · cases hs; simp
        · cases hs
      · split at hs
        · cases hs; simp
        · cases hs

theorem length_exposet {l : List Int} {n : Nat} {b : Binv} (h : BV.mk { exposet := some l, length := some (n : Int) } = .ok b) : b.length = n := by
  have key : fromExposet l n = .ok b → b.length = n := by
    intro h
    unfold fromExposet at h
    cases hs : setAll l (List.replicate (n : Int).toNat false) with
    | error e => rw [hs] at h; cases h
    | ok v => rw [hs] at h; cases h; simpa [Binv.length] using length_setAll hs
  change mkExposet l (some (n : Int)) none = .ok b at h
  unfold mkExposet at h
  simp only at h
  split at h
  · split at h
    · cases h
    · split at h
      · exact key h
      · cases h
  · exact key h

theorem ends_newFullspots (fs : List Int) (av : Option (List Int)) (ar : Option Int) (skip : Bool) : Ends (newFullspots fs av ar skip) := by
  unfold newFullspots
  split
  · intro h; cases h
  · split
    · exact ends_ok _
    · simp only
      split
      · split <;> (intro h; cases h)
      · refine (ends_mk _).bind fun b hb => ?_
        split
        · exact (ends_ok _).bind fun x _ => ends_newTT _ _ _ _
        · have hl := length_exposet hb
          rw [shl_eq] at hl
          obtain ⟨c, A', h, _⟩ := deflate_spec b _ hl
          rw [h]
          exact (ends_ok _).bind fun x _ => ends_newTT _ _ _ _

theorem ends_newZhe (z : Int) : Ends (newZhe z) := by
  by_cases h : z < 0
  · have := C50_zhe_negative z h
    change newZhe z = _ at this
    rw [this]; intro h; cases h
  · obtain ⟨n, rfl⟩ := Int.eq_ofNat_of_zero_le (show 0 ≤ z by omega)
    obtain ⟨f, _, f1, _⟩ := newZhe_spec n
    show Ends (newZhe (n : Int))
    rw [f1]; exact ends_ok _

/-- at most one of the arguments that can describe a function is given (the four lists count as one), and atoms or an arity only beside a table or
fullspots -/
def Fits (a : Args) : Prop :=
  [a.tt.isSome, a.atom.isSome, a.fs.isSome, a.zhe.isSome, a.ws.isSome, a.muA.isSome || a.muO.isSome || a.muXo.isSome || a.muXa.isSome].count true ≤ 1 ∧
  ((a.av.isSome || a.arity.isSome) = true → (a.tt.isSome || a.fs.isSome) = true)

instance (a : Args) : Decidable (Fits a) := by unfold Fits; infer_instance

theorem ends_newMulti (a b c d : Option (List Entry)) (he : ∀ g, Entry.boolf g ∈ a.getD [] ++ b.getD [] ++ c.getD [] ++ d.getD [] → Sound g) :
    Ends (newMulti a b c d) := by
  unfold newMulti
  simp only [newTT_str0, newTT_str1, bind, Except.bind]
  split
  · obtain ⟨g, g1, _⟩ := multiLoop_spec (fun f g hf hg => and_spec hf hg) _ (fun g hg => he g (by simpa using hg)) _ (canon_const true)
    rw [g1]; exact ends_ok _
  · obtain ⟨g, g1, _⟩ := multiLoop_spec (fun f g hf hg => or_spec hf hg) _ (fun g hg => he g (by simpa using hg)) _ (canon_const false)
    rw [g1]; exact ends_ok _
  · obtain ⟨g, g1, _⟩ := multiLoop_spec (fun f g hf hg => xor_spec hf hg) _ (fun g hg => he g (by simpa using hg)) _ (canon_const false)
    rw [g1]; exact ends_ok _
  · obtain ⟨g, g1, _⟩ := multiLoop_spec (ext := Boolf.xand) (op := fun x y => x ^^ !y) (fun f g hf hg => xand_spec hf hg) _ (fun g hg => he g (by simpa using hg)) _ (canon_const true)
    rw [g1]; exact ends_ok _
  · intro h; cases h

/-- **C65.** The constructor runs forever exactly for combinations of arguments that do not fit. -/
theorem C65_hangs_iff (a : Args) (he : ∀ g, Entry.boolf g ∈ a.entries → Obj g) : new a = .error .diverges ↔ ¬ Fits a := by
  have key : ∀ {c : Bool} {x : Except Err Boolf}, Ends x → ((if c = true then x else .error .diverges) = .error .diverges ↔ ¬ c = true) := by
    intro c x hx
    cases c with
    | true => simp only [if_true, not_true, iff_false]; exact hx
    | false => simp
  have hmulti := ends_newMulti a.muA a.muO a.muXo a.muXa (fun g hg => (he g hg).good.toSound)
  obtain ⟨tt, av, atom, arity, fs, muA, muO, muXo, muXa, zhe, ws, skip⟩ := a
  have hm : (muA.isNone && muO.isNone && muXo.isNone && muXa.isNone) = !(muA.isSome || muO.isSome || muXo.isSome || muXa.isSome) := by
    cases muA <;> cases muO <;> cases muXo <;> cases muXa <;> rfl
  have hx : (av.isNone && arity.isNone) = !(av.isSome || arity.isSome) := by
    cases av <;> cases arity <;> rfl
  unfold new Fits
  simp only [hm, hx]
  generalize (muA.isSome || muO.isSome || muXo.isSome || muXa.isSome) = m
  generalize (av.isSome || arity.isSome) = x
  simp only at hmulti
  rcases tt with _ | tt <;> rcases atom with _ | atom <;> rcases fs with _ | fs <;> rcases zhe with _ | zhe <;> rcases ws with _ | ws
  · simp only
    rw [key hmulti]
    cases m <;> cases x <;> simp
  · simp only
    rw [key (by
      unfold newWalsh
      simp only
      generalize (if List.length _ < 2 then (1 : Int) else _) = n
      split
      · exact ends_newTT _ _ _ _
      · intro h; cases h)]
    cases m <;> cases x <;> simp
  · simp only
    rw [key (ends_newZhe zhe)]
    cases m <;> cases x <;> simp
  · cases m <;> cases x <;> simp
  · simp only
    rw [key (ends_newFullspots fs av arity skip)]
    cases m <;> cases x <;> simp
  · cases m <;> cases x <;> simp
  · cases m <;> cases x <;> simp
  · cases m <;> cases x <;> simp
  · simp only
    rw [key (ends_ok (setUnary atom))]
    cases m <;> cases x <;> simp
  · cases m <;> cases x <;> simp
  · cases m <;> cases x <;> simp
  · cases m <;> cases x <;> simp
  · cases m <;> cases x <;> simp
  · cases m <;> cases x <;> simp
  · cases m <;> cases x <;> simp
  · cases m <;> cases x <;> simp
  · simp only
    rw [key (ends_newTT tt av arity skip)]
    cases m <;> cases x <;> simp
  all_goals cases m <;> cases x <;> simp

/-- **C65.** No argument, or more than one of the lists, raises an exception. -/
theorem C65_combo_error (a b c d : Option (List Entry))
    (h : [a.isSome, b.isSome, c.isSome, d.isSome].count true ≠ 1) (skip : Bool) :
    new { muA := a, muO := b, muXo := c, muXa := d, skip := skip } = .error .argCombo := by
  unfold new newMulti
  cases a <;> cases b <;> cases c <;> cases d <;> simp at h ⊢

example : ¬ Fits { arity := some 3 } ∧ ¬ Fits { tt := some (.str ['0', '1']), zhe := some 3 } ∧ Fits { tt := some (.int 6), arity := some 3 } ∧
    Fits {} := by decide

end Verif.BF
