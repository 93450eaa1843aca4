import Verif.SigPerm.Basic
import Mathlib.Algebra.BigOperators.Group.List.Basic

/-!
# C31, C62: signed permutations

The specification uses the method `sequence`: `value s i` is the entry at `i` of `s.sequence(n)` for an `n` above `i`
(theorem `C31_sequence` says that the choice of `n` does not matter).
-/

namespace Verif.SG
open Verif.Py Verif.P Verif.BV Verif.A

/-- The entry of the signed permutation at index `i`. -/
def SigPerm.value (s : SigPerm) (i : Nat) : Int :=
  match s.sequence (some (max s.length (i + 1))) with
  | .ok l => (l[i]?).getD 0
  | .error _ => 0

/-- `perm` arguments are permutation objects, or proper arguments for their constructor. -/
def PermArg.Valid : PermArg → Prop
  | .perm p => Constructed p
  | .arg a => a.Valid

/-- A signed permutation object that some constructor call returns, whose permutation is finite. -/
def Finite (s : SigPerm) : Prop :=
  (∃ a : Args, (∀ p, a.perm = some p → p.Valid) ∧ new a = .ok s) ∧ s.perm.perilen = none

/-! ### all constructed objects are well-formed -/

theorem buildValneg_binv {b : Binv} {p : PermArg} {s : SigPerm} (h : buildValneg (.binv b) p = .ok s) :
    ∃ q, build q b = .ok s ∧ (p.Valid → Constructed q) := by
  cases p with
  | perm q => exact ⟨q, h, fun hv => hv⟩
  | arg a =>
    simp only [buildValneg, bind, Except.bind] at h
    cases hm : mkPerm a with
    | error e => rw [hm] at h; cases h
    | ok q => rw [hm] at h; exact ⟨q, h, fun hv => ⟨a, none, hv, hm⟩⟩

theorem buildValneg_ok {v : NegArg} {p : PermArg} (hv : p.Valid) {s : SigPerm} (h : buildValneg v p = .ok s) :
    ∃ q raw, build q raw = .ok s ∧ Constructed q := by
  have key : ∀ x : Except Err Binv, (x.bind fun b => buildValneg (.binv b) p) = .ok s →
      ∃ q raw, build q raw = .ok s ∧ Constructed q := by
    intro x hx
    cases x with
    | error e => cases hx
    | ok b =>
      obtain ⟨q, q1, q2⟩ := buildValneg_binv hx
      exact ⟨q, b, q1, q2 hv⟩
  cases v with
  | binv b => exact key (.ok b) h
  | set l => exact key (BV.mk { exposet := some l }) h
  | list l => exact key (BV.mk { vector := some (.list l) }) h
  | str l => exact key (BV.mk { vector := some (.str l) }) h

theorem buildSequence_ok {l : List Int} {s : SigPerm} (h : buildSequence l = .ok s) :
    ∃ q raw, build q raw = .ok s ∧ Constructed q := by
  unfold buildSequence at h
  simp only [bind, Except.bind] at h
  split at h
  · cases h
  · next q hq =>
    split at h
    · cases h
    · next raw hr => exact ⟨q, raw, h, ⟨.seq _, none, trivial, hq⟩⟩

theorem convPerm_valid {a b : Option PermArg} (ha : ∀ p, a = some p → p.Valid) (h : convPerm a = .ok b) :
    ∀ p, b = some p → p.Valid := by
  intro p hp
  subst hp
  unfold convPerm at h
  split at h
  · next l =>
    cases hm : mkPerm (.seq l) with
    | error e => rw [hm] at h; cases h
    | ok q => rw [hm] at h; cases h; exact ⟨.seq l, none, trivial, hm⟩
  · next l =>
    have hv := ha _ rfl
    cases hm : mkPerm (.cycles l) with
    | error e => rw [hm] at h; cases h
    | ok q => rw [hm] at h; cases h; exact ⟨.cycles l, none, hv, hm⟩
  · cases h; exact ha _ rfl

theorem usePermIndex_valid {a b : Option PermArg} {n : Option Int} (ha : ∀ p, a = some p → p.Valid)
    (h : usePermIndex a n = .ok b) : ∀ p, b = some p → p.Valid := by
  cases n with
  | none => cases h; exact ha
  | some n =>
    intro p hp
    subst hp
    simp only [usePermIndex] at h
    split at h
    · obtain ⟨q, q1, q2, _⟩ := C15_rank_of_int n.toNat
      rw [q1] at h
      cases h
      exact q2
    · cases h

theorem new_ok {a : Args} (ha : ∀ p, a.perm = some p → p.Valid) {s : SigPerm} (h : new a = .ok s) :
    ∃ q raw, build q raw = .ok s ∧ Constructed q := by
  unfold new at h
  simp only [bind, Except.bind] at h
  split at h
  · cases h
  split at h
  · cases h
  split at h
  · cases h
  next p1 hp1 =>
  split at h
  · cases h
  next vp _ =>
  obtain ⟨vi, pi⟩ := vp
  simp only at h
  split at h
  · cases h
  split at h
  · cases h
  split at h
  · cases h
  next p2 hp2 =>
  have hv := usePermIndex_valid (convPerm_valid ha hp1) hp2
  split at h
  · exact buildValneg_ok (hv _ rfl) h
  · split at h
    · cases h
    · exact buildSequence_ok h
  · exact buildSequence_ok h
  · split at h
    · cases h
    · exact buildSequence_ok h
  · cases h

theorem build_perm {q : Perm} {raw : Binv} {s : SigPerm} (h : build q raw = .ok s) : s.perm = q := by
  unfold build at h
  simp only [ofBools_eq] at h
  cases h
  rfl

theorem Finite.wf {s : SigPerm} (h : Finite s) : WF s := by
  obtain ⟨⟨a, ha, hn⟩, hf⟩ := h
  obtain ⟨q, raw, h1, h2⟩ := new_ok ha hn
  have := build_perm h1
  rw [this] at hf
  obtain ⟨t, t1, t2, _⟩ := build_spec h2 hf raw
  rw [h1] at t1
  cases t1
  exact t2

theorem value_eq {s : SigPerm} (h : WF s) (i : Nat) : s.value i = s.val i := by
  unfold SigPerm.value
  rw [(h.sequence _).1 (Nat.le_max_left _ _)]
  simp only
  rw [List.getElem?_map, List.getElem?_range (by omega)]
  rfl

theorem value_eq_val {s : SigPerm} (h : Finite s) : s.value = s.val := funext (value_eq h.wf)

/-! ### C31: construction, sequences -/

/-- **C31.** A finite signed permutation of length `L`: `sequence(n)` succeeds exactly for `n ≥ L` (otherwise `ValueError`), the
entries do not depend on `n`; the absolute values of the entries are a permutation of the natural numbers; `L` is the least number
from which on all entries are fixed; `s[i]` is the entry at `i` below `L` and raises `IndexError` beyond. -/
theorem C31_sequence (s : SigPerm) (hs : Finite s) :
    (∀ n, s.length ≤ n → s.sequence (some n) = .ok ((List.range n).map s.value)) ∧
    (∀ n, n < s.length → s.sequence (some n) = .error .valueError) ∧
    s.sequence none = s.sequence (some s.length) ∧
    (∀ j : Nat, ∃! i : Nat, s.value i = j ∨ s.value i = inv j) ∧
    (∀ n, s.length ≤ n ↔ ∀ i, n ≤ i → s.value i = i) ∧
    (∀ i, s.getItem i = if i < s.length then .ok (s.value i) else .error .indexError) := by
  have h := hs.wf
  rw [value_eq_val hs]
  have hiff : ∀ i j : Nat, (s.val i = j ∨ s.val i = inv j) ↔ nabs (s.val i) = j := by
    intro i j
    constructor
    · rintro (e | e)
      · rw [e, nabs_nat]
      · rw [e, nabs_inv, nabs_nat]
    · intro e
      rcases nabs_cases (s.val i) with ⟨_, h2⟩ | ⟨_, h2⟩ <;> rw [e] at h2
      · exact Or.inl h2
      · exact Or.inr h2
  refine ⟨fun n => (h.sequence n).1, fun n => (h.sequence n).2, ?_, ?_, h.length_le, ?_⟩
  · rw [h.sequence_none, (h.sequence _).1 (Nat.le_refl _)]
  · intro j
    simp only [hiff]
    obtain ⟨i, hi⟩ := h.signed.surj j
    exact ⟨i, hi, fun k hk => h.signed.injective _ _ (by rw [hk, hi])⟩
  · intro i
    unfold SigPerm.getItem
    rw [h.sequenceMinimal]
    simp only [List.getElem?_map]
    by_cases hi : i < s.length
    · rw [List.getElem?_range hi, if_pos hi]; rfl
    · rw [List.getElem?_eq_none (by simpa using hi), if_neg hi]; rfl

theorem new_sequence (l : List Int) : new { sequence := some l } = buildSequence l := rfl

theorem finite_of_new {a : Args} {s : SigPerm} (ha : ∀ p, a.perm = some p → p.Valid) (h : new a = .ok s)
    (hf : s.perm.perilen = none) : Finite s := ⟨⟨a, ha, h⟩, hf⟩

theorem finite_of_sequence {l : List Int} {s : SigPerm} (h : buildSequence l = .ok s) (hw : WF s) : Finite s :=
  ⟨⟨{ sequence := some l }, by simp, h⟩, hw.finite⟩

/-- **C31.** `SigPerm(sequence=l)` is accepted exactly if the absolute values of `l` (`n` for `n` and `~n`) are the numbers below the
length of `l` in some order.  Then its entries are those of `l`, continued by fixed points.  Otherwise `SequenceError` is raised. -/
theorem C31_of_sequence (l : List Int) :
    ((l.map (fun z => if z < 0 then (-z - 1).toNat else z.toNat)).Perm (List.range l.length) →
      ∃ s, new { sequence := some l } = .ok s ∧ Finite s ∧ ∀ i, s.value i = (l[i]?).getD i) ∧
    (¬ (l.map (fun z => if z < 0 then (-z - 1).toNat else z.toNat)).Perm (List.range l.length) →
      new { sequence := some l } = .error .sequenceError) := by
  have e : l.map (fun z => if z < 0 then (-z - 1).toNat else z.toNat) = (l.map logicAbs).map Int.toNat := by
    rw [List.map_map]
    apply List.map_congr_left
    intro z _
    show (if z < 0 then (inv z).toNat else z.toNat) = (logicAbs z).toNat
    unfold logicAbs
    split <;> rfl
  rw [e]
  constructor
  · intro h
    obtain ⟨h1, h2⟩ := signed_of_list h
    obtain ⟨s, s1, s2, s3, s4⟩ := buildSequence_spec h1
    rw [h2] at s1
    have hf := finite_of_sequence s1 s2
    exact ⟨s, s1, hf, fun i => by rw [value_eq s2, s4]⟩
  · intro h
    rw [new_sequence]
    unfold buildSequence
    have := (C01_perm_of_list ((l.map logicAbs).map Int.toNat)).2 (by simpa using h)
    simp only [this, bind, Except.bind]

example : ∃ s, new { sequence := some [-3, 0, 1] } = .ok s ∧ Finite s ∧ s.length = 3 ∧ s.value 0 = inv 2 ∧ s.value 1 = 0 ∧ s.value 7 = 7 ∧
    s.getItem 3 = .error .indexError ∧ s.sequence (some 2) = .error .valueError := by
  exact ⟨_, rfl, ⟨⟨{ sequence := some [-3, 0, 1] }, by simp, rfl⟩, by decide⟩, by decide⟩

example : new { sequence := some [-1, 0] } = .error .sequenceError := by decide

/-- negated entries -/
theorem neg_value {s : SigPerm} (h : WF s) {p : Perm} {b : Binv} (hp : s.perm = p) (hb : ∀ i, i ∈ s.binv.exposet ↔ i ∈ b.exposet)
    (i : Nat) : s.value i = if b.hasIndex (p.get i) then inv (p.get i) else p.get i := by
  rw [value_eq h]
  unfold SigPerm.val Binv.hasIndex
  rw [hp]
  simp only [hb, List.contains_iff_mem]

theorem ofBinv (b : Binv) (p : Perm) : new { valneg := some (.binv b), perm := some (.perm p) } = build p b := rfl

/-- **C31.** `SigPerm(valneg=b, perm=p)` for a binary vector `b` and a finite permutation `p`: the entry at `i` is `p[i]`, negated iff
`b` has a 1 at place `p[i]`.  A list, a set of naturals or a string in place of the vector mean the same as the vector made of it. -/
theorem C31_valneg (b : Binv) (p : Perm) (hp : Constructed p) (hf : p.perilen = none) :
    ∃ s, new { valneg := some (.binv b), perm := some (.perm p) } = .ok s ∧ Finite s ∧
      (∀ i, s.value i = if b.intval.testBit (p.get i) then inv (p.get i) else p.get i) ∧
      (∀ l, BV.mk { vector := some (.list l) } = .ok b → new { valneg := some (.list l), perm := some (.perm p) } = .ok s) ∧
      (∀ l, BV.mk { exposet := some l } = .ok b → new { valneg := some (.set l), perm := some (.perm p) } = .ok s) ∧
      (∀ l, BV.mk { vector := some (.str l) } = .ok b → new { valneg := some (.str l), perm := some (.perm p) } = .ok s) := by
  obtain ⟨s, s1, s2, s3, s4, _⟩ := build_spec hp hf b
  refine ⟨s, s1, ⟨⟨{ valneg := some (.binv b), perm := some (.perm p) }, ?_, s1⟩, s2.finite⟩, ?_, ?_, ?_, ?_⟩
  · rintro q hq; cases hq; exact hp
  · intro i
    rw [neg_value s2 s3 s4]
    have := (C26_attributes b).2.2.2.1 (p.get i)
    by_cases hc : b.hasIndex (p.get i) = true
    · rw [if_pos hc, if_pos (this.1 hc)]
    · rw [if_neg hc, if_neg (fun h => hc (this.2 h))]
  · intro l hl
    rw [← s1]
    simp [new, convNeg, hl, convPerm, usePair, useNegIndex, usePermIndex, buildValneg, bind, Except.bind, Except.map]
  · intro l hl
    rw [← s1]
    simp [new, convNeg, hl, convPerm, usePair, useNegIndex, usePermIndex, buildValneg, bind, Except.bind, Except.map]
  · intro l hl
    rw [← s1]
    simp [new, convNeg, hl, convPerm, usePair, useNegIndex, usePermIndex, buildValneg, bind, Except.bind]

example : (new { valneg := some (.list [0, 0, 1]), perm := some (.arg (.seq [2, 0, 1])) }).bind (·.sequence none) = .ok [-3, 0, 1] := by
  decide

theorem keyneg_sequence_spec (b : Binv) (p : Perm) (hp : Constructed p) (hf : p.perilen = none) :
    ∃ s l, keynegSequence (.binv b) (.perm p) = .ok l ∧ buildSequence l = .ok s ∧ WF s ∧ Canon s ∧
      ∀ i, s.val i = if b.intval.testBit i then inv (p.get i) else p.get i := by
  have hbit := (C26_attributes b).2.2.2.1
  have hN : Signed (fun i => if b.intval.testBit i then inv (p.get i) else (p.get i : Int)) (max b.requiredLength p.length) := by
    have hn : ∀ i, nabs (if b.intval.testBit i then inv (p.get i) else (p.get i : Int)) = p.get i := by
      intro i
      split
      · rw [nabs_inv, nabs_nat]
      · rw [nabs_nat]
    refine ⟨?_, ?_, ?_⟩
    · intro i hi
      rw [hn]
      exact hp.wf.maps_below _ (Or.inl ⟨hf, by omega⟩) i hi
    · intro i j _ _ e
      rw [hn, hn] at e
      exact hp.wf.get_bijective.1 e
    · intro i hi
      have : p.get i = i := hp.wf.finite_bounded hf (by omega)
      have hb : ¬ b.intval.testBit i = true := by
        rw [← hbit]
        unfold Binv.hasIndex
        rw [List.contains_iff_mem]
        intro hm
        have := (requiredLength_le b _).1 (Nat.le_refl _) i hm
        omega
      rw [if_neg hb, this]
  obtain ⟨s, s1, s2, s3, s4⟩ := buildSequence_spec hN
  refine ⟨s, _, rfl, ?_, s2, s3, fun i => by rw [s4]⟩
  rw [← s1]
  congr 1
  apply List.map_congr_left
  intro i _
  unfold logicNegate
  by_cases hc : b.hasIndex i = true
  · rw [if_pos hc, if_pos ((hbit i).1 hc)]
  · rw [if_neg hc, if_neg (fun h => hc ((hbit i).2 h))]

/-- **C31.** `SigPerm(keyneg=b, perm=p)`: the entry at `i` is `p[i]`, negated iff `b` has a 1 at place `i`. -/
theorem C31_keyneg (b : Binv) (p : Perm) (hp : Constructed p) (hf : p.perilen = none) :
    ∃ s, new { keyneg := some (.binv b), perm := some (.perm p) } = .ok s ∧ Finite s ∧
      (∀ i, s.value i = if b.intval.testBit i then inv (p.get i) else p.get i) ∧
      (∀ l, BV.mk { vector := some (.list l) } = .ok b → new { keyneg := some (.list l), perm := some (.perm p) } = .ok s) ∧
      (∀ l, BV.mk { exposet := some l } = .ok b → new { keyneg := some (.set l), perm := some (.perm p) } = .ok s) := by
  obtain ⟨s, l, l1, s1, s2, _, s3⟩ := keyneg_sequence_spec b p hp hf
  have hnew : new { keyneg := some (.binv b), perm := some (.perm p) } = .ok s := by
    rw [← s1]
    simp [new, convNeg, convPerm, usePair, useNegIndex, usePermIndex, bind, Except.bind, l1]
  refine ⟨s, hnew, finite_of_sequence s1 s2, fun i => by rw [value_eq s2, s3], ?_, ?_⟩
  · intro l' hl
    rw [← s1]
    simp [new, convNeg, hl, convPerm, usePair, useNegIndex, usePermIndex, bind, Except.bind, Except.map, l1]
  · intro l' hl
    rw [← s1]
    simp [new, convNeg, hl, convPerm, usePair, useNegIndex, usePermIndex, bind, Except.bind, Except.map, l1]

example : (new { keyneg := some (.list [0, 0, 1]), perm := some (.arg (.seq [2, 0, 1])) }).bind (·.sequence none) = .ok [2, 0, -2] := by
  decide

/-! ### C31: equality -/

theorem perm_eq_iff {s t : SigPerm} (hs : WF s) (ht : WF t) :
    s.eq t = true ↔ s.val = t.val ∧ ((∀ i : Nat, s.val i = i) ∨ s.binv.length = t.binv.length) := by
  unfold SigPerm.eq
  by_cases hn : (s.neutral && t.neutral) = true
  · rw [if_pos hn]
    rw [Bool.and_eq_true, hs.neutral_iff, ht.neutral_iff] at hn
    simp only [true_iff]
    exact ⟨funext fun i => by rw [hn.1, hn.2], Or.inl hn.1⟩
  · rw [if_neg hn, Bool.and_eq_true, C05_eq_extensional _ _ hs.constructed ht.constructed]
    constructor
    · rintro ⟨h1, h2⟩
      have h2' : s.binv = t.binv := by
        unfold Binv.eq at h2
        cases hb : s.binv; cases hc : t.binv
        rw [hb, hc] at h2
        simp only [beq_iff_eq] at h2
        rw [h2]
      refine ⟨funext fun i => ?_, Or.inr (by rw [h2'])⟩
      unfold SigPerm.val
      rw [h1, h2']
    · rintro ⟨h, h'⟩
      refine ⟨fun i => by rw [← nabs_val, ← nabs_val, h], ?_⟩
      rcases h' with h' | h'
      · exfalso
        apply hn
        rw [Bool.and_eq_true, hs.neutral_iff, ht.neutral_iff]
        exact ⟨h', by rw [← h]; exact h'⟩
      · have hb : s.binv = t.binv := ext_exposet h' (fun i => by rw [exposet_iff hs, exposet_iff ht, h])
        rw [hb]
        unfold Binv.eq
        simp

/-- **C31.** Two finite signed permutations are equal iff they have the same entries, and are neutral or have negators of the same
length. -/
theorem C31_equality (s t : SigPerm) (hs : Finite s) (ht : Finite t) :
    s.eq t = true ↔ (∀ i, s.value i = t.value i) ∧ ((∀ i : Nat, s.value i = i) ∨ s.binv.length = t.binv.length) := by
  rw [perm_eq_iff hs.wf ht.wf, value_eq_val hs, value_eq_val ht, funext_iff]

theorem intval_binv_length {n : Int} {b : Binv} (h : BV.mk { intval := some n } = .ok b) : b.length ≤ b.requiredLength := by
  by_cases hn : n < 0
  · rw [C26_negative_intval n none none hn] at h; cases h
  · obtain ⟨m, rfl⟩ := Int.eq_ofNat_of_zero_le (by omega : 0 ≤ n)
    obtain ⟨c, c1, c2, c3⟩ := C26_intval_only m
    rw [show BV.mk { intval := some ((m : Nat) : Int) } = .ok c from c1] at h
    cases h
    rw [c3, ← c2, ← (C26_attributes _).2.2.2.2.2.2]

theorem buildSequence_canon {l : List Int} {s : SigPerm} (h : buildSequence l = .ok s) : Canon s := by
  by_cases hl : ((l.map logicAbs).map Int.toNat).Perm (List.range l.length)
  · obtain ⟨h1, h2⟩ := signed_of_list hl
    obtain ⟨t, t1, t2, t3, _⟩ := buildSequence_spec h1
    rw [h2, h] at t1
    cases t1
    exact t3
  · have := (C31_of_sequence l).2 (by
      intro hc
      apply hl
      have e : l.map (fun z => if z < 0 then (-z - 1).toNat else z.toNat) = (l.map logicAbs).map Int.toNat := by
        rw [List.map_map]
        apply List.map_congr_left
        intro z _
        show (if z < 0 then (inv z).toNat else z.toNat) = (logicAbs z).toNat
        unfold logicAbs
        split <;> rfl
      rwa [e] at hc)
    rw [new_sequence, h] at this
    cases this

theorem build_canon {q : Perm} {raw : Binv} {s : SigPerm} (h : build q raw = .ok s) :
    s.binv.length = max raw.length s.length := by
  unfold build at h
  simp only [ofBools_eq] at h
  cases h
  unfold Binv.length
  simp only [List.length_append, List.length_replicate]
  omega

/-- **C31.** The negator has the length of the signed permutation, unless it was made from an explicit argument `valneg`; then it
has the length of that argument, if that is longer.  (So equality means equal entries for objects made in all other ways.) -/
theorem C31_negator_length (a : Args) (s : SigPerm) (h : new a = .ok s) :
    (a.valneg = none → s.binv.length = s.length) ∧
    (∀ b p, a = { valneg := some (.binv b), perm := p } → s.binv.length = max b.length s.length) := by
  constructor
  · intro hv
    unfold new at h
    rw [hv] at h
    simp only [bind, Except.bind, convNeg] at h
    split at h
    · cases h
    split at h
    · cases h
    split at h
    · cases h
    next vp _ =>
    obtain ⟨vi, pi⟩ := vp
    simp only at h
    split at h
    · cases h
    next w hw =>
    split at h
    · cases h
    split at h
    · cases h
    split at h
    · next v p =>
      cases vi with
      | none => cases hw
      | some n =>
        simp only [useNegIndex] at hw
        cases hb : BV.mk { intval := some n } with
        | error e => rw [hb] at hw; cases hw
        | ok b =>
          rw [hb] at hw
          cases hw
          obtain ⟨q, h, _⟩ := buildValneg_binv h
          rw [build_canon h]
          have h1 := intval_binv_length hb
          have h2 : b.requiredLength ≤ s.length := by
            unfold build at h
            simp only [ofBools_eq] at h
            cases h
            exact Nat.le_max_left _ _
          omega
    · split at h
      · cases h
      · exact buildSequence_canon h
    · exact buildSequence_canon h
    · split at h
      · cases h
      · exact buildSequence_canon h
    · cases h
  · rintro b p rfl
    cases p with
    | none => simp [new, convNeg, convPerm, usePair, useNegIndex, usePermIndex, bind, Except.bind] at h
    | some p =>
      unfold new at h
      simp only [bind, Except.bind, convNeg] at h
      split at h
      · cases h
      next q hq =>
      simp only [usePair, useNegIndex, usePermIndex] at h
      cases q with
      | none => simp at h
      | some q =>
        obtain ⟨q, h, _⟩ := buildValneg_binv h
        exact build_canon h

/-- The exception is real: with the valneg `[1, 0]` in place of `[1]` the entries are the same, but the objects differ. -/
theorem C31_long_valneg : ∃ s t : SigPerm, new { valneg := some (.list [1]), perm := some (.perm neutralPerm) } = .ok s ∧
    new { valneg := some (.list [1, 0]), perm := some (.perm neutralPerm) } = .ok t ∧
    Finite s ∧ Finite t ∧ (∀ i, s.value i = t.value i) ∧ s.eq t = false := by
  obtain ⟨s, s1, s2, s3, s4, _⟩ := C31_valneg ⟨[true]⟩ neutralPerm constructed_neutral rfl
  obtain ⟨t, t1, t2, t3, t4, _⟩ := C31_valneg ⟨[true, false]⟩ neutralPerm constructed_neutral rfl
  refine ⟨s, t, s4 _ rfl, t4 _ rfl, s2, t2, ?_, ?_⟩
  · intro i
    rw [s3, t3]
    rfl
  · cases s1; cases t1; decide

/-! ### C31: round trips -/

theorem Finite.eq_of_value {s t : SigPerm} (hs : WF s) (ht : WF t) (cs : Canon s) (ct : Canon t) (h : s.val = t.val) :
    s.eq t = true := (eq_iff hs ht cs ct).2 h

theorem sum_single {n k : Nat} (hk : k < n) (f : Nat → Int) (h : ∀ i, i < n → i ≠ k → f i = 0) :
    ((List.range n).map f).sum = f k := by
  induction n with
  | zero => omega
  | succ n ih =>
    rw [List.range_succ, List.map_append, List.sum_append]
    simp only [List.map_cons, List.map_nil, List.sum_cons, List.sum_nil, Int.add_zero]
    by_cases hkn : k = n
    · subst hkn
      have : ((List.range k).map f).sum = 0 := by
        apply List.sum_eq_zero
        intro x hx
        obtain ⟨i, hi, rfl⟩ := List.mem_map.1 hx
        rw [List.mem_range] at hi
        exact h i (by omega) (by omega)
      rw [this]; omega
    · rw [ih (by omega) (fun i hi hne => h i (by omega) hne), h n (by omega) (fun e => hkn e.symm)]
      omega

/-- the entry of the matrix of a signed permutation -/
def matEntry (f : Nat → Int) (m n : Nat) : Int := if nabs (f n) = m then (if f n < 0 then -1 else 1) else 0

theorem filterMap_single {n k : Nat} (hk : k < n) (g : Nat → Option Int) {z : Int} (hz : g k = some z)
    (h : ∀ i, i < n → i ≠ k → g i = none) : (List.range n).filterMap g = [z] := by
  induction n with
  | zero => omega
  | succ n ih =>
    rw [List.range_succ, List.filterMap_append]
    by_cases hkn : k = n
    · subst hkn
      have : (List.range k).filterMap g = [] := by
        rw [List.filterMap_eq_nil_iff]
        intro i hi
        rw [List.mem_range] at hi
        exact h i (by omega) (by omega)
      rw [this]
      simp [hz]
    · rw [ih (by omega) (fun i hi hne => h i (by omega) hne)]
      simp [h n (by omega) (fun e => hkn e.symm)]

theorem matrixToSequence_spec {f : Nat → Int} {N : Nat} (h : Signed f N) (m : Mat) (hr : m.rows = N) (hc : m.cols = N)
    (hm : ∀ i j, i < N → j < N → m.get i j = matEntry f i j) : matrixToSequence m = .ok ((List.range N).map f) := by
  unfold matrixToSequence
  rw [if_pos (by omega), hr]
  congr 1
  rw [List.map_eq_flatMap]
  apply List.flatMap_congr
  intro n hn
  rw [List.mem_range] at hn
  apply filterMap_single (h.lt n hn)
  · rw [hm _ _ (h.lt n hn) hn]
    rcases nabs_cases (f n) with ⟨h1, h2⟩ | ⟨h1, h2⟩
    · have : matEntry f (nabs (f n)) n = 1 := by
        unfold matEntry
        rw [if_pos rfl, if_neg (by omega)]
      rw [this, if_pos rfl, ← h2]
    · have : matEntry f (nabs (f n)) n = -1 := by
        unfold matEntry
        rw [if_pos rfl, if_pos h1]
      rw [this, if_neg (by omega), if_pos rfl, ← h2]
  · intro i hi hne
    rw [hm _ _ hi hn]
    have : matEntry f i n = 0 := by
      unfold matEntry
      rw [if_neg (fun e => hne e.symm)]
    rw [this]
    rfl

theorem matrix_spec {s : SigPerm} (h : WF s) {n : Nat} (hn : s.length ≤ n) :
    ∃ m, s.matrix (some n) = .ok m ∧ m.rows = n ∧ m.cols = n ∧ ∀ i j, i < n → j < n → m.get i j = matEntry s.val i j := by
  have hS := h.signed.mono hn
  unfold SigPerm.matrix
  simp only
  rw [if_pos hn, (h.sequence n).1 hn]
  simp only [bind, Except.bind, sequenceToMatrix]
  rw [if_pos]
  · refine ⟨_, rfl, by simp, by simp, ?_⟩
    intro i j hi hj
    simp only [List.getElem?_map, List.getElem?_range hj, Option.map_some]
    unfold matEntry
    rw [logicAbs_eq]
    by_cases e : nabs (s.val j) = i
    · rw [if_pos e, if_pos (by rw [e])]
    · rw [if_neg e, if_neg (by omega)]
  · rw [List.all_eq_true]
    intro x hx
    obtain ⟨i, hi, rfl⟩ := List.mem_map.1 hx
    rw [List.mem_range] at hi
    have := hS.lt i hi
    rw [decide_eq_true_iff, logicAbs_eq]
    simp only [List.length_map, List.length_range]
    omega

theorem new_matrix (m : Mat) : new { matrix := some m } = (matrixToSequence m).bind buildSequence := rfl

theorem new_matrix_spec {f : Nat → Int} {N : Nat} (h : Signed f N) (m : Mat) (hr : m.rows = N) (hc : m.cols = N)
    (hm : ∀ i j, i < N → j < N → m.get i j = matEntry f i j) :
    ∃ s, new { matrix := some m } = .ok s ∧ WF s ∧ Canon s ∧ s.val = f ∧ Finite s := by
  obtain ⟨s, s1, s2, s3, s4⟩ := buildSequence_spec h
  refine ⟨s, ?_, s2, s3, s4, finite_of_sequence s1 s2⟩
  rw [new_matrix, matrixToSequence_spec h m hr hc hm]
  exact s1

/-- **C31.** `matrix(n)` succeeds exactly for `n` not below the length; it has in column `j` a single non-zero entry, which is
`1` in row `s[j]`, or `-1` in row `~s[j]`; and the constructor makes the signed permutation from it again. -/
theorem C31_matrix (s : SigPerm) (hs : Finite s) (n : Nat) :
    (n < s.length → s.matrix (some n) = .error .valueError) ∧
    (s.length ≤ n → ∃ m t, s.matrix (some n) = .ok m ∧ m.rows = n ∧ m.cols = n ∧
      (∀ i j : Nat, i < n → j < n →
        m.get i j = if s.value j = i then 1 else if s.value j = inv i then -1 else 0) ∧
      new { matrix := some m } = .ok t ∧ Finite t ∧ (∀ i, t.value i = s.value i) ∧
      (s.binv.length = s.length → t.eq s = true)) := by
  have h := hs.wf
  constructor
  · intro hn
    unfold SigPerm.matrix
    simp only
    rw [if_neg (by omega)]
  · intro hn
    obtain ⟨m, m1, m2, m3, m4⟩ := matrix_spec h hn
    obtain ⟨t, t1, t2, t3, t4, t5⟩ := new_matrix_spec (h.signed.mono hn) m m2 m3 m4
    refine ⟨m, t, m1, m2, m3, ?_, t1, t5, fun i => by rw [value_eq t2, value_eq h, t4], fun hc => (eq_iff t2 h t3 hc).2 t4⟩
    intro i j hi hj
    rw [m4 i j hi hj, value_eq h]
    unfold matEntry
    rcases nabs_cases (s.val j) with ⟨h1, h2⟩ | ⟨h1, h2⟩
    · by_cases e : nabs (s.val j) = i
      · rw [if_pos e, if_neg (by omega), if_pos (by rw [h2, e])]
      · rw [if_neg e, if_neg (by omega), if_neg (by unfold inv; omega)]
    · by_cases e : nabs (s.val j) = i
      · rw [if_pos e, if_pos h1, if_neg (by omega), if_pos (by rw [h2, e])]
      · rw [if_neg e, if_neg (by omega), if_neg (by rw [h2]; unfold inv; omega)]

example : (((new { sequence := some [-3, 0, 1] }).bind (·.matrix none)).map fun m => (List.range 3).map fun i => (List.range 3).map (m.get i)) =
    .ok [[0, 1, 0], [0, 0, 1], [-1, 0, 0]] := by decide

/-- **C31.** `SigPerm(matrix=m)` does not check that `m` is a signed permutation matrix: this one has two ones in the first column
and none in the second, and is accepted as neutral.  (Matrices that are not square raise `ValueError`.) -/
theorem C31_matrix_unchecked :
    (∃ s, new { matrix := some ⟨2, 2, fun _ j => if j = 0 then 1 else 0⟩ } = .ok s ∧ s.neutral = true) ∧
    (∀ m : Mat, m.rows ≠ m.cols → new { matrix := some m } = .error .valueError) := by
  constructor
  · exact ⟨_, rfl, by decide⟩
  · intro m hm
    rw [new_matrix]
    unfold matrixToSequence
    rw [if_neg hm]
    rfl

/-- **C31.** `SigPerm(sequence=s.sequence(n))` has the entries of `s`. -/
theorem C31_sequence_roundtrip (s : SigPerm) (hs : Finite s) (n : Nat) (hn : s.length ≤ n) :
    ∃ l t, s.sequence (some n) = .ok l ∧ new { sequence := some l } = .ok t ∧ Finite t ∧ (∀ i, t.value i = s.value i) ∧
      (s.binv.length = s.length → t.eq s = true) := by
  have h := hs.wf
  obtain ⟨t, t1, t2, t3, t4⟩ := buildSequence_spec (h.signed.mono hn)
  exact ⟨_, t, (h.sequence n).1 hn, t1, finite_of_sequence t1 t2, fun i => by rw [value_eq t2, value_eq h, t4],
    fun hc => (eq_iff t2 h t3 hc).2 t4⟩

theorem permIndex_spec {s : SigPerm} (h : WF s) : ∃ r p, s.permIndex = .ok r ∧ intToPerm r = .ok p ∧ Constructed p ∧ p.perilen = none ∧
    p.get = s.perm.get := by
  obtain ⟨r, r1, p, q, p1, p2, p3⟩ := C15_int_of_rank s.perm h.constructed h.finite
  cases p2
  obtain ⟨p', p1', p2', p3', _⟩ := C15_rank_of_int r
  rw [p1] at p1'
  cases p1'
  exact ⟨r, p, r1, p1, p2', p3', funext ((C05_eq_extensional p _ p2' h.constructed).1 p3)⟩

/-- **C31.** The pair of indices describes the signed permutation: the first number has a binary digit 1 at `j` iff the entry `~j`
occurs, and the constructor makes the signed permutation from the pair again; every pair of natural numbers belongs to one. -/
theorem C31_pair :
    (∀ s, Finite s → ∃ v r t, s.pair = .ok (v, r) ∧ s.valnegIndex = v ∧ s.permIndex = .ok r ∧
      (∀ j : Nat, v.testBit j = true ↔ ∃ i, s.value i = inv j) ∧
      new { pair := some (v, r) } = .ok t ∧ new { valnegIndex := some v, permIndex := some r } = .ok t ∧
      Finite t ∧ (∀ i, t.value i = s.value i) ∧ (s.binv.length = s.length → t.eq s = true)) ∧
    (∀ v r : Nat, ∃ s, new { pair := some (v, r) } = .ok s ∧ Finite s ∧ s.pair = .ok (v, r)) := by
  have key : ∀ (v r : Nat) (p : Perm), intToPerm r = .ok p → Constructed p → p.perilen = none →
      ∃ t, new { pair := some (v, r) } = .ok t ∧ new { valnegIndex := some v, permIndex := some r } = .ok t ∧ WF t ∧ Canon t ∧
        t.perm = p ∧ t.binv.intval = v ∧ (∀ i, i ∈ t.binv.exposet ↔ v.testBit i = true) := by
    intro v r p p1 p2 p3
    obtain ⟨b, b1, b2, b3⟩ := C26_intval_only v
    obtain ⟨t, t1, t2, t3, t4, t5⟩ := build_spec p2 p3 b
    have hb1 : BV.mk { intval := some (v : Int) } = .ok b := b1
    have hbit : ∀ (c : Binv) i, i ∈ c.exposet ↔ c.intval.testBit i = true := by
      intro c i
      rw [← (C26_attributes c).2.2.2.1 i]
      unfold Binv.hasIndex
      rw [List.contains_iff_mem]
    refine ⟨t, ?_, ?_, t2, ?_, t3, ?_, ?_⟩
    · rw [← t1]
      simp [new, convNeg, convPerm, usePair, useNegIndex, usePermIndex, buildValneg, bind, Except.bind, Except.map, hb1, p1]
    · rw [← t1]
      simp [new, convNeg, convPerm, usePair, useNegIndex, usePermIndex, buildValneg, bind, Except.bind, Except.map, hb1, p1]
    · rw [t5]
      have h1 := intval_binv_length hb1
      refine Nat.le_trans h1 ((requiredLength_le _ _).2 ?_)
      intro i hi
      exact t2.exposet_lt ((t4 i).2 hi)
    · apply Nat.eq_of_testBit_eq
      intro i
      rw [Bool.eq_iff_iff, ← hbit, t4, hbit, b2]
    · intro i
      rw [t4, hbit, b2]
  constructor
  · intro s hs
    have h := hs.wf
    obtain ⟨r, p, r1, p1, p2, p3, p4⟩ := permIndex_spec h
    obtain ⟨t, t1, t2, t3, t4, t5, t6, t7⟩ := key s.valnegIndex r p p1 p2 p3
    have hv : ∀ j, s.valnegIndex.testBit j = true ↔ j ∈ s.binv.exposet := by
      intro j
      unfold SigPerm.valnegIndex
      rw [← (C26_attributes s.binv).2.2.2.1 j]
      unfold Binv.hasIndex
      rw [List.contains_iff_mem]
    have hval : t.val = s.val := by
      funext i
      unfold SigPerm.val
      rw [t5, p4]
      simp only [t7, hv]
    refine ⟨s.valnegIndex, r, t, ?_, rfl, r1, ?_, t1, t2, ⟨⟨_, by simp, t1⟩, t3.finite⟩,
      fun i => by rw [value_eq t3, value_eq h, hval], fun hc => (eq_iff t3 h t4 hc).2 hval⟩
    · unfold SigPerm.pair; rw [r1]; rfl
    · intro j
      rw [hv, exposet_iff h]
      constructor
      · rintro ⟨i, i1, i2⟩
        refine ⟨i, ?_⟩
        rw [value_eq h]
        rcases nabs_cases (s.val i) with ⟨h1, h2⟩ | ⟨h1, h2⟩
        · omega
        · rw [h2, i1]
      · rintro ⟨i, hi⟩
        rw [value_eq h] at hi
        exact ⟨i, by rw [hi, nabs_inv, nabs_nat], by rw [hi, inv_neg]; omega⟩
  · intro v r
    obtain ⟨p, p1, p2, p3, p4⟩ := C15_rank_of_int r
    obtain ⟨t, t1, _, t3, t4, t5, t6, t7⟩ := key v r p p1 p2 p3
    refine ⟨t, t1, ⟨⟨_, by simp, t1⟩, t3.finite⟩, ?_⟩
    unfold SigPerm.pair SigPerm.permIndex SigPerm.valnegIndex
    rw [t5, p4, t6]
    rfl

example : (new { sequence := some [-3, 0, 1] }).bind (·.pair) = .ok (4, 3) ∧
    (new { pair := some (4, 3) }).bind (·.sequence none) = .ok [-3, 0, 1] := by decide

/-- an argument for the signs that the constructor of `Binv` accepts, if it is called with it before the arguments are counted -/
def NegOk (a : Option NegArg) : Prop :=
  (∀ l, a = some (.list l) → ∃ b, BV.mk { vector := some (.list l) } = .ok b) ∧ (∀ l, a = some (.set l) → ∃ b, BV.mk { exposet := some l } = .ok b)

theorem NegOk.conv {a : Option NegArg} (h : NegOk a) : ∃ b, convNeg a = .ok b := by
  match a, h with
  | none, _ => exact ⟨_, rfl⟩
  | some (.binv b), _ => exact ⟨_, rfl⟩
  | some (.str b), _ => exact ⟨_, rfl⟩
  | some (.list l), h =>
    obtain ⟨b, hb⟩ := h.1 l rfl
    exact ⟨_, by rw [convNeg, hb]; rfl⟩
  | some (.set l), h =>
    obtain ⟨b, hb⟩ := h.2 l rfl
    exact ⟨_, by rw [convNeg, hb]; rfl⟩

/-- **C31.** A pair together with any other argument is always rejected.  If the lists and sets among the arguments are valid, the exception is `ArgComboError`
only if no argument is a `Binv`, a `Perm` or a matrix with more than one entry: the first of these gives `AssertionError`, `OtherNotPermError` or
`ValueError`, as they refuse the comparison with `None`. -/
theorem C31_pair_combination (a : Args) (hp : a.pair ≠ none)
    (ho : a.valneg ≠ none ∨ a.valnegIndex ≠ none ∨ a.keyneg ≠ none ∨ a.keynegIndex ≠ none ∨ a.perm ≠ none ∨ a.permIndex ≠ none ∨ a.sequence ≠ none ∨
      a.matrix ≠ none) :
    (∃ e, new a = .error e) ∧
    (NegOk a.valneg → NegOk a.keyneg → (∀ l, a.perm = some (.arg (.seq l)) → ∃ p, mkPerm (.seq l) = .ok p) →
      (∀ l, a.perm = some (.arg (.cycles l)) → ∃ p, mkPerm (.cycles l) = .ok p) →
      ((∃ b, a.valneg = some (.binv b) ∨ a.keyneg = some (.binv b)) → new a = .error .assertion) ∧
      ((¬ ∃ b, a.valneg = some (.binv b) ∨ a.keyneg = some (.binv b)) →
        ((∃ p, a.perm = some (.perm p)) → new a = .error .otherNotPerm) ∧
        ((¬ ∃ p, a.perm = some (.perm p)) →
          ((∃ m, a.matrix = some m ∧ 1 < m.rows * m.cols) → new a = .error .valueError) ∧
          ((¬ ∃ m, a.matrix = some m ∧ 1 < m.rows * m.cols) → new a = .error .argCombo)))) := by
  have hu : usePair a = .error (comboError a) := by
    unfold usePair
    cases h : a.pair with
    | none => exact absurd h hp
    | some x =>
      obtain ⟨v, p⟩ := x
      dsimp only
      rw [if_neg]
      simp only [Bool.and_eq_true, Option.isNone_iff_eq_none]
      tauto
  constructor
  · unfold new
    simp only [bind, Except.bind]
    split
    · exact ⟨_, rfl⟩
    split
    · exact ⟨_, rfl⟩
    split
    · exact ⟨_, rfl⟩
    rw [hu]
    exact ⟨_, rfl⟩
  · intro h1 h2 h3 h4
    obtain ⟨b1, e1⟩ := h1.conv
    obtain ⟨b2, e2⟩ := h2.conv
    have hc : ∃ p, convPerm a.perm = .ok p := by
      cases h : a.perm with
      | none => exact ⟨_, rfl⟩
      | some x =>
        cases x with
        | perm p => exact ⟨_, rfl⟩
        | arg x =>
          cases x with
          | seq l => obtain ⟨p, q⟩ := h3 l h; exact ⟨_, by rw [convPerm, q]; rfl⟩
          | cycles l => obtain ⟨p, q⟩ := h4 l h; exact ⟨_, by rw [convPerm, q]; rfl⟩
          | _ => exact ⟨_, rfl⟩
    obtain ⟨p, e3⟩ := hc
    have hn : new a = .error (comboError a) := by
      unfold new
      simp only [bind, Except.bind, e1, e2, e3, hu]
    rw [hn]
    obtain ⟨valneg, valnegIndex, keyneg, keynegIndex, perm, permIndex, pair, sequence, matrix⟩ := a
    dsimp only at *
    clear hn hu e1 e2 e3 h1 h2 h3 h4 hp ho
    refine ⟨?_, fun n1 => ⟨?_, fun n2 => ⟨?_, fun n3 => ?_⟩⟩⟩
    · rintro ⟨b, rfl | rfl⟩
      · rfl
      · unfold comboError
        split <;> simp_all
    · rintro ⟨q, rfl⟩
      unfold comboError
      split <;> simp_all
    · rintro ⟨m, rfl, hm⟩
      unfold comboError
      split <;> simp_all
    · unfold comboError
      split <;> simp_all

example : (new { pair := some (4, 3), keynegIndex := some 1 } = .error .argCombo) ∧
    (new { pair := some (4, 3), perm := some (.perm neutralPerm) } = .error .otherNotPerm) ∧
    (new { pair := some (4, 3), perm := some (.perm neutralPerm), keyneg := some (.binv ⟨[true]⟩) } = .error .assertion) ∧
    (new { pair := some (4, 3), perm := some (.arg (.seq [1, 0])), keyneg := some (.list [1]) } = .error .argCombo) ∧
    (new { pair := some (4, 3), keyneg := some (.list [2]) } = .error .vectorEntry) := by decide

theorem foldl_keyneg (l : List Int) (k acc : Nat) (hacc : acc < 2 ^ k) :
    ∀ i, ((l.zipIdx k).foldl (fun result vk => if vk.1 < 0 then result + 2 ^ vk.2 else result) acc).testBit i =
      if i < k then acc.testBit i else decide (∃ z, l[i - k]? = some z ∧ z < 0) := by
  induction l generalizing k acc with
  | nil =>
    intro i
    simp only [List.zipIdx_nil, List.foldl_nil]
    split
    · rfl
    · have : acc < 2 ^ i := Nat.lt_of_lt_of_le hacc (Nat.pow_le_pow_right (by omega) (by omega))
      rw [Nat.testBit_lt_two_pow this]
      simp
  | cons x t ih =>
    intro i
    simp only [List.zipIdx_cons, List.foldl_cons]
    have h2 : 2 ^ (k + 1) = 2 ^ k + 2 ^ k := by rw [Nat.pow_succ]; omega
    rw [ih (k + 1) _ (by split <;> omega) i]
    by_cases hik : i < k
    · rw [if_pos (by omega), if_pos hik]
      split
      · rw [Nat.add_comm, Nat.testBit_two_pow_add_gt (by omega)]
      · rfl
    · by_cases hik' : i = k
      · subst hik'
        rw [if_pos (by omega : i < i + 1), if_neg (by omega : ¬ i < i), Nat.sub_self]
        simp only [List.getElem?_cons_zero, Option.some.injEq, exists_eq_left']
        by_cases hx : x < 0
        · simp only [hx, if_true, decide_true]
          rw [Nat.add_comm, Nat.testBit_two_pow_add_eq, Nat.testBit_lt_two_pow hacc]
          rfl
        · simp only [hx, if_false, decide_false]
          exact Nat.testBit_lt_two_pow hacc
      · rw [if_neg (by omega), if_neg hik]
        have : i - k = (i - (k + 1)) + 1 := by omega
        rw [this, List.getElem?_cons_succ]

/-- **C31.** The number `keyneg_index` has a binary digit 1 at `i` iff the entry at `i` is negative, and together with `perm_index` it
describes the signed permutation. -/
theorem C31_keyneg_index (s : SigPerm) (hs : Finite s) :
    ∃ k r t, s.keynegIndex = .ok k ∧ s.permIndex = .ok r ∧ (∀ i, k.testBit i = true ↔ s.value i < 0) ∧
      new { keynegIndex := some k, permIndex := some r } = .ok t ∧ Finite t ∧ (∀ i, t.value i = s.value i) ∧
      (s.binv.length = s.length → t.eq s = true) := by
  have h := hs.wf
  obtain ⟨r, p, r1, p1, p2, p3, p4⟩ := permIndex_spec h
  have hk : ∃ k, s.keynegIndex = .ok k ∧ ∀ i, k.testBit i = true ↔ s.val i < 0 := by
    unfold SigPerm.keynegIndex
    rw [h.sequence_none]
    refine ⟨_, rfl, ?_⟩
    intro i
    rw [foldl_keyneg _ 0 0 (by simp) i]
    simp only [Nat.not_lt_zero, if_false, Nat.sub_zero, decide_eq_true_iff, List.getElem?_map]
    constructor
    · rintro ⟨z, z1, z2⟩
      by_cases hi : i < s.length
      · rw [List.getElem?_range hi] at z1
        simp only [Option.map_some, Option.some.injEq] at z1
        rwa [z1]
      · rw [List.getElem?_eq_none (by simpa using hi)] at z1
        cases z1
    · intro hneg
      have hi : i < s.length := by
        by_contra hc
        rw [h.signed.fix i (by omega)] at hneg
        omega
      rw [List.getElem?_range hi]
      exact ⟨_, rfl, hneg⟩
  obtain ⟨k, k1, k2⟩ := hk
  obtain ⟨b, b1, b2, b3⟩ := C26_intval_only k
  have hb1 : BV.mk { intval := some (k : Int) } = .ok b := b1
  obtain ⟨t, l, l1, t1, t2, t3, t4⟩ := keyneg_sequence_spec b p p2 p3
  have hval : t.val = s.val := by
    funext i
    rw [t4, b2]
    apply signed_ext
    · rw [nabs_val]
      split
      · rw [nabs_inv, nabs_nat, p4]
      · rw [nabs_nat, p4]
    · rw [← k2]
      by_cases hc : k.testBit i = true
      · rw [if_pos hc, inv_neg]
        simp only [hc, iff_true]; omega
      · rw [if_neg hc]
        simp [hc]
  refine ⟨k, r, t, k1, r1, fun i => by rw [k2, value_eq h], ?_, finite_of_sequence t1 t2,
    fun i => by rw [value_eq t2, value_eq h, hval], fun hc => (eq_iff t2 h t3 hc).2 hval⟩
  rw [← t1]
  simp [new, convNeg, convPerm, usePair, useNegIndex, usePermIndex, bind, Except.bind, Except.map, hb1, p1, l1]

example : (new { sequence := some [-3, 0, 1] }).bind (·.keynegIndex) = .ok 1 ∧
    (new { keynegIndex := some 1, permIndex := some 3 }).bind (·.sequence none) = .ok [-3, 0, 1] := by decide

/-- **C62.** `str` distinguishes signed permutations with different entries, and only those. -/
theorem C62_str (s t : SigPerm) (hs : Finite s) (ht : Finite t) :
    ∃ a b, s.str = .ok a ∧ t.str = .ok b ∧ (a = b ↔ ∀ i, s.value i = t.value i) := by
  have h := hs.wf
  have h' := ht.wf
  have he : (fun e : Int => (if e < 0 then ['~'] else []) ++ intStr (logicAbs e)) = logicStr := by
    funext e
    rw [logicStr_eq, intStr_nonneg (logicAbs_nonneg e)]
  unfold SigPerm.str SigPerm.sequenceString
  rw [h.sequence_none, h'.sequence_none, he]
  refine ⟨_, _, rfl, rfl, ?_⟩
  rw [value_eq_val hs, value_eq_val ht]
  constructor
  · intro e
    simp only [Bool.false_eq_true, if_false, List.append_assoc, List.append_cancel_left_eq] at e
    have := (listStr_inj logicStr_decodable _ _ _ _ e).1
    have hl : s.length = t.length := by simpa using congrArg List.length this
    rw [hl] at this
    intro i
    by_cases hi : i < t.length
    · exact List.map_inj_left.1 this i (List.mem_range.2 hi)
    · rw [h.signed.fix i (by omega), h'.signed.fix i (by omega)]
  · intro e
    have e' : s.val = t.val := funext e
    rw [h.length_eq h' e', e']

example : (new { sequence := some [-3, 0, 1] }).bind (·.str) = .ok "SigPerm(sequence=[~2, 0, 1])".toList := by decide

/-- **C62.** A signed permutation equals a permutation iff it has the same entries. -/
theorem C62_equals_perm (s : SigPerm) (hs : Finite s) (p : Perm) (hp : Constructed p) :
    s.eqPerm p = true ↔ ∀ i, s.value i = p.get i := by
  have h := hs.wf
  rw [value_eq_val hs]
  unfold SigPerm.eqPerm
  by_cases hn : (s.neutral && p.neutral) = true
  · rw [if_pos hn]
    rw [Bool.and_eq_true, h.neutral_iff, C05_neutral_iff _ hp] at hn
    simp only [true_iff]
    intro i
    rw [hn.1, hn.2]
  · rw [if_neg hn]
    by_cases hb : s.binv.intval = 0
    · rw [if_neg (by simpa using hb), C05_eq_extensional _ _ h.constructed hp]
      rw [intval_zero_iff] at hb
      unfold SigPerm.val
      simp only [hb, List.not_mem_nil, if_false, Int.natCast_inj]
    · rw [if_pos hb]
      simp only [Bool.false_eq_true, false_iff]
      intro hall
      apply hb
      rw [intval_zero_iff, List.eq_nil_iff_forall_not_mem]
      intro j hj
      obtain ⟨i, _, hi⟩ := (exposet_iff h j).1 hj
      rw [hall] at hi
      omega

example : (new { sequence := some [2, 0, 1] }).bind (fun s => (mkPerm (.seq [2, 0, 1])).map s.eqPerm) = .ok true ∧
    (new { sequence := some [-3, 0, 1] }).bind (fun s => (mkPerm (.seq [2, 0, 1])).map s.eqPerm) = .ok false := by decide

/-- **C62.** The flags: `neutral` iff every entry is fixed, `unsigned` iff no entry is negative, `unmoved` iff every entry is `i` or `~i`. -/
theorem C62_flags (s : SigPerm) (hs : Finite s) :
    (s.neutral = true ↔ ∀ i : Nat, s.value i = i) ∧ (s.unsigned = true ↔ ∀ i, 0 ≤ s.value i) ∧
    (s.unmoved = true ↔ ∀ i : Nat, s.value i = i ∨ s.value i = inv i) := by
  have h := hs.wf
  rw [value_eq_val hs]
  refine ⟨h.neutral_iff, ?_, ?_⟩
  · rw [h.unsigned, decide_eq_true_iff, intval_zero_iff, List.eq_nil_iff_forall_not_mem]
    constructor
    · intro hall i
      by_contra hc
      exact hall _ ((exposet_iff h _).2 ⟨i, rfl, by omega⟩)
    · intro hall j hj
      obtain ⟨i, _, hi⟩ := (exposet_iff h j).1 hj
      have := hall i
      omega
  · rw [h.unmoved, C05_neutral_iff _ h.constructed]
    constructor
    · intro hall i
      rcases nabs_cases (s.val i) with ⟨_, h2⟩ | ⟨_, h2⟩ <;> rw [nabs_val, hall] at h2
      · exact Or.inl h2
      · exact Or.inr h2
    · intro hall i
      rw [← nabs_val]
      rcases hall i with e | e
      · rw [e, nabs_nat]
      · rw [e, nabs_inv, nabs_nat]

end Verif.SG
