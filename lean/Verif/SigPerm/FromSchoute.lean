import Verif.SigPerm.Schoute
import Verif.Boolf.Props31

/-!
# Model of `atompattern_to_signed_index`, sig_perm/a/schoute_to_finite_inverse and `SigPerm(schoute_perm=...)`; property C136
-/

namespace Verif.SG
open Verif.Py Verif.P Verif.BV Verif.A Verif.W

/-! ## Model -/

/-- a/_atompatterns/__init__.py:35-45 for a list (line 39) or `Binv` with these entries -/
noncomputable def atompatternToSignedIndex (vector : List Bool) : Except Err (Nat × Bool) := do
  let boolf ← BF.newTT (.binv (← ofBools vector))
  let negate ← (← boolf.tt).getItem 0
  match boolf.atomvals with
  | [atomval] => .ok (atomval, negate)
  | _ => .error .assertion

/-- sig_perm/a/schoute_to_finite_inverse/__init__.py:30-32 -/
noncomputable def signedEntry (row : List Bool) : Except Err Int := do
  let (atomval, negate) ← atompatternToSignedIndex row
  return if negate then inv atomval else (atomval : Int)

/-- sig_perm/a/schoute_to_finite_inverse/__init__.py:16-35 for a `Perm` -/
noncomputable def schouteToFiniteInverse (perm : Perm) : Except Err (List Int) :=
  if perm.neutral then .ok []
  else if isPowerOfTwo perm.length then do
    let short ← BF.logFloor perm.length
    let columns ← (List.range perm.length).mapM fun i => BV.mk { intval := some (perm.get i : Int), length := some (short : Int) }
    (List.range short).mapM fun i => signedEntry (columns.map fun column => column.vector.getD i false)
  else .error .argValue

/-- sig_perm/a/schoute_to_finite_inverse/__init__.py:11-12 and 16-35 for a list of natural numbers -/
noncomputable def schouteListToFiniteInverse (l : List Nat) : Except Err (List Int) := do
  schouteToFiniteInverse (← mkPerm (.seq l) (some l.length))

/-- sig_perm/__init__.py:79-82 and 99-112; the argument is the result of line 79.  sig_perm/a/sequence_to_matrix/__init__.py:16-17 (`inverse`) is the
transposition. -/
def newFromInverse (inverseSequence : List Int) : Except Err SigPerm := do
  let matrix ← sequenceToMatrix inverseSequence
  let sequence ← matrixToSequence matrix.transpose
  buildSequence sequence

/-- sig_perm/__init__.py:16-112 with only the argument `schoute_perm`, a `Perm` -/
noncomputable def newSchoute (perm : Perm) : Except Err SigPerm := do newFromInverse (← schouteToFiniteInverse perm)

/-- sig_perm/__init__.py:16-112 with only the argument `schoute_perm`, a list of natural numbers -/
noncomputable def newSchouteList (l : List Nat) : Except Err SigPerm := do newFromInverse (← schouteListToFiniteInverse l)

/-! ## Patterns -/

theorem eval_single {f : BF.Boolf} (h : BF.Canon f) {k : Nat} (hk : f.atomvals = [k]) (a : Nat → Bool) :
    f.eval a = (a k ^^ f.eval (0 : Nat).testBit) := by
  obtain ⟨b, hb⟩ := (h.mem_iff k).1 (by rw [hk]; simp)
  have key : ∀ c : Nat → Bool, f.eval c = f.eval (BF.upd b k (c k)) := by
    intro c
    apply BF.Boolf.eval_congr
    intro x hx
    rw [hk, List.mem_singleton] at hx
    subst hx
    unfold BF.upd
    rw [if_pos rfl]
  rw [key a, key (0 : Nat).testBit, Nat.zero_testBit]
  cases a k
  · simp
  · rw [Bool.true_xor]
    cases h1 : f.eval (BF.upd b k false) <;> cases h2 : f.eval (BF.upd b k true) <;> first | rfl | exact absurd (h1.trans h2.symm) hb

/-- the table is that of the atom `k`, negated if `neg` -/
def IsPattern (v : List Bool) (n k : Nat) (neg : Bool) : Prop := k < n ∧ ∀ i < 2 ^ n, v[i]? = some (i.testBit k ^^ neg)

theorem atompattern_cases (v : List Bool) {n : Nat} (hv : v.length = 2 ^ n) :
    (∃ k neg, IsPattern v n k neg ∧ atompatternToSignedIndex v = .ok (k, neg)) ∨ ((∀ k neg, ¬ IsPattern v n k neg) ∧ atompatternToSignedIndex v = .error .assertion) := by
  obtain ⟨f, f1, f2, f3⟩ := BF.ttDeflated_none (b := ⟨v⟩) hv
  have hval : ∀ i < 2 ^ n, v[i]? = some (f.eval i.testBit) := by
    intro i hi
    rw [f3, BF.valB_range_testBit, Nat.mod_eq_of_lt hi, List.getD_eq_getElem?_getD, List.getElem?_eq_getElem (by omega)]
    rfl
  have hmod : f.adicity ≤ n := f2.adicity_le (e := fun l => v.getD (valB l) false) f3
  have hrun : atompatternToSignedIndex v = match f.atomvals with
      | [atomval] => .ok (atomval, f.eval (0 : Nat).testBit)
      | _ => .error .assertion := by
    unfold atompatternToSignedIndex
    rw [ofBools_eq]
    simp only [bind, Except.bind, BF.newTT_binv, f1, BF.tt_eq f2.toSound]
    have : Binv.getItem ⟨(List.range (2 ^ f.adicity)).map fun k => f.eval k.testBit⟩ 0 = .ok (f.eval (0 : Nat).testBit) := by
      unfold Binv.getItem
      rw [List.getElem?_map, List.getElem?_range (Nat.two_pow_pos _)]
      rfl
    rw [this]
  by_cases h : ∃ k, f.atomvals = [k]
  · obtain ⟨k, hk⟩ := h
    left
    refine ⟨k, f.eval (0 : Nat).testBit, ⟨?_, ?_⟩, by rw [hrun, hk]⟩
    · exact (f2.adic n).1 hmod k (by rw [hk]; simp)
    · intro i hi
      rw [hval i hi, eval_single f2 hk i.testBit]
  · right
    constructor
    · rintro k neg ⟨h1, h2⟩
      apply h
      refine ⟨k, ?_⟩
      let z : Int := if neg then inv k else k
      have hz : (logicAbs z).toNat = k ∧ decide (z < 0) = neg := by
        cases neg
        · simp only [z, Bool.false_eq_true, if_false, logicAbs]
          rw [if_neg (by omega)]
          simp
        · simp only [z, if_true, logicAbs, inv]
          rw [if_pos (by omega)]
          constructor
          · omega
          · rw [decide_eq_true]; omega
      have : f = BF.setUnary z := by
        apply f2.ext (BF.canon_unary z)
        intro a
        rw [f3, BF.eval_unary, hz.1, hz.2]
        have hlt := BF.valB_range_lt n a
        have := h2 _ hlt
        rw [List.getD_eq_getElem?_getD, this, BF.testBit_valB_map, List.getElem?_range h1]
        simp
      rw [this]
      unfold BF.setUnary
      have := hz.1
      unfold logicAbs at this
      split
      · next h => rw [if_pos h] at this; simp [this]
      · next h => rw [if_neg h] at this; simp [this]
    · rw [hrun]
      split
      · next h' => exact absurd ⟨_, h'⟩ h
      · rfl

theorem IsPattern.unique {v : List Bool} {n k j : Nat} {a b : Bool} (h1 : IsPattern v n k a) (h2 : IsPattern v n j b) : k = j ∧ a = b := by
  have e : ∀ i < 2 ^ n, (i.testBit k ^^ a) = (i.testBit j ^^ b) := fun i hi => by
    have := (h1.2 i hi).symm.trans (h2.2 i hi)
    simpa using this
  have h0 := e 0 (Nat.two_pow_pos n)
  simp only [Nat.zero_testBit, Bool.false_xor] at h0
  subst h0
  refine ⟨?_, rfl⟩
  have hk := e (2 ^ k) (Nat.pow_lt_pow_right (by omega) h1.1)
  rw [Nat.testBit_two_pow, Nat.testBit_two_pow] at hk
  by_contra hc
  simp [hc] at hk

/-- **C136.** `atompattern_to_signed_index` of a table of length `2 ** n` returns `(k, negate)` exactly for the pattern of the atom `k`, negated if
`negate` is true.  All other tables raise `AssertionError`. -/
theorem C136_atompattern (v : List Bool) (n : Nat) (hv : v.length = 2 ^ n) :
    (∀ k neg, atompatternToSignedIndex v = .ok (k, neg) ↔ k < n ∧ ∀ i < 2 ^ n, v[i]? = some (i.testBit k ^^ neg)) ∧
    ((∀ k neg, ¬ (k < n ∧ ∀ i < 2 ^ n, v[i]? = some (i.testBit k ^^ neg))) → atompatternToSignedIndex v = .error .assertion) := by
  rcases atompattern_cases v hv with ⟨k, neg, h1, h2⟩ | ⟨h1, h2⟩
  · refine ⟨?_, fun h => absurd h1 (h k neg)⟩
    intro j b
    rw [h2]
    constructor
    · intro h; cases h; exact h1
    · intro h
      obtain ⟨rfl, rfl⟩ := h1.unique h
      rfl
  · refine ⟨?_, fun _ => h2⟩
    intro j b
    rw [h2]
    constructor
    · intro h; cases h
    · intro h; exact absurd h (h1 j b)

/-! ## Rows and columns -/

theorem signedEntry_iff (v : List Bool) {n : Nat} (hv : v.length = 2 ^ n) (z : Int) :
    signedEntry v = .ok z ↔ nabs z < n ∧ ∀ i < 2 ^ n, v[i]? = some (i.testBit (nabs z) ^^ decide (z < 0)) := by
  unfold signedEntry
  have hz : ∀ (k : Nat) (neg : Bool), nabs (if neg then inv k else (k : Int)) = k ∧ decide ((if neg then inv k else (k : Int)) < 0) = neg := by
    intro k neg
    cases neg
    · simp only [Bool.false_eq_true, if_false, nabs_nat, true_and]
      rw [decide_eq_false (by omega)]
    · simp only [if_true, nabs, logicAbs, inv]
      rw [if_pos (by omega), decide_eq_true (by omega)]
      exact ⟨by omega, rfl⟩
  rcases atompattern_cases v hv with ⟨k, neg, h1, h2⟩ | ⟨h1, h2⟩
  · rw [h2]
    simp only [bind, Except.bind, pure, Except.pure]
    constructor
    · intro h
      cases h
      rw [(hz k neg).1, (hz k neg).2]
      exact h1
    · intro h
      obtain ⟨e1, e2⟩ := h1.unique h
      congr 1
      apply signed_ext
      · rw [(hz k neg).1, e1]
      · rw [← decide_eq_decide, (hz k neg).2, e2]
  · rw [h2]
    simp only [bind, Except.bind]
    constructor
    · intro h; cases h
    · intro h; exact absurd h (h1 _ _)

theorem signedEntry_error (v : List Bool) {n : Nat} (hv : v.length = 2 ^ n) : (∃ z, signedEntry v = .ok z) ∨ signedEntry v = .error .assertion := by
  unfold signedEntry
  rcases atompattern_cases v hv with ⟨k, neg, h1, h2⟩ | ⟨h1, h2⟩
  · rw [h2]; exact Or.inl ⟨_, rfl⟩
  · rw [h2]; exact Or.inr rfl

theorem get_lt_length {p : Perm} (hp : Constructed p) : ∀ i < p.length, p.get i < p.length := by
  cases h : p.perilen with
  | none => exact hp.wf.maps_below p.length (Or.inl ⟨h, Nat.le_refl _⟩)
  | some l =>
    rw [hp.wf.per_length l h]
    exact fun i hi => hp.wf.get_lt h (Nat.dvd_refl _) hi

theorem length_ne_one {p : Perm} (hp : Constructed p) (hn : p.neutral = false) : p.length ≠ 1 := by
  intro h1
  have h0 : p.get 0 = 0 := by have := get_lt_length hp 0 (by omega); omega
  have : p.neutral = true := by
    rw [hp.wf.neutral_iff_get]
    intro n
    cases h : p.perilen with
    | none =>
      rcases Nat.eq_zero_or_pos n with rfl | hpos
      · exact h0
      · exact hp.wf.finite_bounded h (by omega)
    | some l =>
      have hl := hp.wf.per_length l h
      have := (hp.wf.shift h).mul n 0
      rw [← hl, h1, h0] at this
      simpa using this
  rw [this] at hn
  cases hn

theorem mapM_congr_left {α β : Type} {f g : α → Except Err β} (l : List α) (h : ∀ x ∈ l, f x = g x) : l.mapM f = l.mapM g := by
  induction l with
  | nil => rfl
  | cons x t ih => rw [List.mapM_cons, List.mapM_cons, h x List.mem_cons_self, ih fun y hy => h y (List.mem_cons_of_mem _ hy)]

/-- row `r` of the long matrix -/
def longRow (p : Perm) (N r : Nat) : List Bool := (List.range (2 ^ N)).map fun i => (p.get i).testBit r

theorem schouteToFiniteInverse_rows {p : Perm} (hp : Constructed p) (hn : p.neutral = false) {N : Nat} (hl : p.length = 2 ^ N) :
    schouteToFiniteInverse p = (List.range N).mapM fun r => signedEntry (longRow p N r) := by
  have hN : 0 < N := by
    rcases Nat.eq_zero_or_pos N with rfl | h
    · exact absurd hl (length_ne_one hp hn)
    · exact h
  have hlt := get_lt_length hp
  unfold schouteToFiniteInverse
  rw [hn, if_neg (by simp), if_pos (isPowerOfTwo_iff.2 ⟨N, hl⟩), hl, BF.log2_two_pow']
  simp only [bind, Except.bind]
  rw [mapM_map_ok (g := fun i => (⟨(List.range N).map (p.get i).testBit⟩ : Binv))]
  · simp only [List.map_map]
    apply mapM_congr_left
    intro r hr
    congr 1
    unfold longRow
    apply List.map_congr_left
    intro i _
    simp only [Function.comp]
    rw [List.getD_eq_getElem?_getD, List.getElem?_map, List.getElem?_range (List.mem_range.1 hr)]
    rfl
  · intro i hi
    apply mk_intval_bits hN
    rw [← hl]
    exact hlt i (by rw [hl]; exact List.mem_range.1 hi)

theorem longRow_get (p : Perm) (N r : Nat) {i : Nat} (hi : i < 2 ^ N) : (longRow p N r)[i]? = some ((p.get i).testBit r) := by
  unfold longRow
  rw [List.getElem?_map, List.getElem?_range hi]
  rfl

theorem mapM_ok_iff {α β : Type} {f : α → Except Err β} : ∀ (l : List α) (r : List β), l.mapM f = .ok r ↔ l.length = r.length ∧ ∀ (i : Nat) (a : α) (b : β), l[i]? = some a → r[i]? = some b → f a = .ok b
  | [], r => by
    rw [List.mapM_nil]
    constructor
    · intro h; cases h; simp
    · intro h
      have : r = [] := List.length_eq_zero_iff.1 h.1.symm
      rw [this]; rfl
  | a :: l, r => by
    rw [List.mapM_cons]
    constructor
    · intro h
      cases ha : f a with
      | error e => rw [ha] at h; cases h
      | ok b =>
        rw [ha] at h
        simp only [bind, Except.bind] at h
        cases hl : l.mapM f with
        | error e => rw [hl] at h; cases h
        | ok t =>
          rw [hl] at h
          cases h
          obtain ⟨h1, h2⟩ := (mapM_ok_iff l t).1 hl
          refine ⟨by simp [h1], ?_⟩
          intro i x y hx hy
          cases i with
          | zero => simp at hx hy; rw [← hx, ← hy]; exact ha
          | succ i => simp at hx hy; exact h2 i x y hx hy
    · rintro ⟨h1, h2⟩
      cases r with
      | nil => cases h1
      | cons b t =>
        have e1 := h2 0 a b rfl rfl
        have e2 := (mapM_ok_iff l t).2 ⟨by simpa using h1, fun i x y hx hy => h2 (i + 1) x y (by simpa using hx) (by simpa using hy)⟩
        rw [e1, e2]
        rfl

/-- the place named by `z`: `z` or `~z` -/
def placeOf (z : Int) : Nat := if z < 0 then (-z - 1).toNat else z.toNat

theorem placeOf_eq (z : Int) : placeOf z = nabs z := by
  unfold placeOf nabs logicAbs inv
  split <;> congr 1

/-- Specification: binary digit `r` of `p[n]` is the digit of `n` at the place named by `l[r]`, flipped if `l[r]` is negative -/
def DigitsFrom (p : Perm) (N : Nat) (l : List Int) : Prop :=
  l.length = N ∧ ∀ r z, l[r]? = some z → placeOf z < N ∧ ∀ n < 2 ^ N, (p.get n).testBit r = if z < 0 then !n.testBit (placeOf z) else n.testBit (placeOf z)

theorem xor_decide (b : Bool) (z : Int) : (b ^^ decide (z < 0)) = if z < 0 then !b else b := by
  split
  · next h => rw [decide_eq_true h, Bool.xor_true]
  · next h => rw [decide_eq_false h, Bool.xor_false]

/-- **C136.** `schoute_to_finite_inverse` of a permutation of length `2 ** N` returns the list `l` exactly if binary digit `r` of `p[n]` is always the digit
of `n` at place `l[r]`, or the flipped digit at place `~l[r]`.  If there is no such list, then `AssertionError` is raised. -/
theorem C136_finite_inverse (p : Perm) (hp : Constructed p) (hn : p.neutral = false) (N : Nat) (hl : p.length = 2 ^ N) :
    (∀ l, schouteToFiniteInverse p = .ok l ↔ DigitsFrom p N l) ∧ ((¬ ∃ l, DigitsFrom p N l) → schouteToFiniteInverse p = .error .assertion) := by
  have hlen : ∀ r, (longRow p N r).length = 2 ^ N := fun r => by simp [longRow]
  have key : ∀ l, schouteToFiniteInverse p = .ok l ↔ DigitsFrom p N l := by
    intro l
    rw [schouteToFiniteInverse_rows hp hn hl, mapM_ok_iff, List.length_range]
    unfold DigitsFrom
    constructor
    · rintro ⟨h1, h2⟩
      refine ⟨h1.symm, ?_⟩
      intro r z hr
      have hrN : r < N := by
        rw [h1]
        exact (List.getElem?_eq_some_iff.1 hr).1
      obtain ⟨a, b⟩ := (signedEntry_iff _ (hlen r) z).1 (h2 r r z (List.getElem?_range hrN) hr)
      rw [placeOf_eq]
      refine ⟨a, ?_⟩
      intro n hn
      have := b n hn
      rw [longRow_get p N r hn] at this
      rw [← xor_decide]
      exact Option.some.inj this
    · rintro ⟨h1, h2⟩
      refine ⟨h1.symm, ?_⟩
      intro r r' z hr hz
      obtain ⟨hrN, rfl⟩ := List.getElem?_eq_some_iff.1 hr
      rw [List.getElem_range]
      obtain ⟨a, b⟩ := h2 r z hz
      rw [placeOf_eq] at a b
      rw [signedEntry_iff _ (hlen r)]
      refine ⟨a, ?_⟩
      intro n hn
      rw [longRow_get p N r hn, b n hn, xor_decide]
  refine ⟨key, ?_⟩
  intro hno
  have hbad : ∃ r ∈ List.range N, signedEntry (longRow p N r) = .error .assertion := by
    by_contra hc
    push Not at hc
    have : ∀ r : Nat, ∃ z, r ∈ List.range N → signedEntry (longRow p N r) = .ok z := by
      intro r
      rcases signedEntry_error _ (hlen r) with ⟨z, hz⟩ | h
      · exact ⟨z, fun _ => hz⟩
      · exact ⟨0, fun hr => absurd h (hc r hr)⟩
    choose g hg using this
    apply hno
    refine ⟨(List.range N).map g, (key _).1 ?_⟩
    rw [schouteToFiniteInverse_rows hp hn hl]
    exact mapM_map_ok _ hg
  rw [schouteToFiniteInverse_rows hp hn hl]
  exact W.mapM_error _ _ _ (fun r _ => signedEntry_error _ (hlen r)) hbad

/-- **C136.** A neutral permutation gives the empty list.  A length that is not a power of two raises `ArgValueError`. -/
theorem C136_other_length (p : Perm) :
    (p.neutral = true → schouteToFiniteInverse p = .ok []) ∧
    (p.neutral = false → (∀ N, p.length ≠ 2 ^ N) → schouteToFiniteInverse p = .error .argValue) := by
  unfold schouteToFiniteInverse
  constructor
  · intro h; rw [if_pos h]
  · intro h h2
    rw [h, if_neg (by simp), if_neg]
    intro hc
    obtain ⟨N, hN⟩ := isPowerOfTwo_iff.1 hc
    exact h2 N hN

/-! ## The constructor -/

theorem transpose_spec {f g : Nat → Int} {N : Nat} (hg : Signed g N) (hf : Signed f N) (h : ∀ i : Nat, ext g (f i) = i) :
    ∃ s, newFromInverse ((List.range N).map g) = .ok s ∧ WF s ∧ Canon s ∧ s.val = f ∧ Finite s := by
  obtain ⟨s, s1, s2, s3, s4⟩ := buildSequence_spec hf
  refine ⟨s, ?_, s2, s3, s4, finite_of_sequence s1 s2⟩
  unfold newFromInverse sequenceToMatrix
  rw [if_pos]
  · simp only [bind, Except.bind]
    rw [matrixToSequence_spec hf]
    · exact s1
    · simp [Mat.transpose]
    · simp [Mat.transpose]
    · intro i j hi hj
      simp only [Mat.transpose, List.getElem?_map, List.getElem?_range hi, Option.map_some]
      have hla : ∀ z : Int, logicAbs z = (nabs z : Int) := by
        intro z
        unfold nabs logicAbs inv
        split <;> omega
      rw [hla]
      unfold matEntry
      obtain ⟨a, b⟩ := sign_iff h j
      by_cases e : nabs (f j) = i
      · rw [if_pos e, if_pos (by rw [← e, a])]
        rw [e] at b
        simp only [b]
      · rw [if_neg e, if_neg]
        intro hc
        apply e
        apply hg.injective
        rw [a]
        omega
  · rw [List.all_eq_true]
    intro z hz
    obtain ⟨r, hr, rfl⟩ := List.mem_map.1 hz
    have := hg.lt r (List.mem_range.1 hr)
    rw [decide_eq_true_eq, List.length_map, List.length_range]
    unfold nabs at this
    have h0 : 0 ≤ logicAbs (g r) := by unfold logicAbs inv; split <;> omega
    omega

/-- the list is that of a signed permutation -/
theorem digits_signed {p : Perm} (hp : Constructed p) {N : Nat} (hl : p.length = 2 ^ N) {l : List Int} (h : DigitsFrom p N l) :
    ∃ g, Signed g N ∧ l = (List.range N).map g := by
  obtain ⟨h1, h2⟩ := h
  have hget : ∀ r, r < N → l[r]? = some (l.getD r 0) := by
    intro r hr
    rw [List.getD_eq_getElem?_getD, List.getElem?_eq_getElem (by omega)]
    rfl
  refine ⟨fun r => if r < N then l.getD r 0 else r, ⟨?_, ?_, ?_⟩, ?_⟩
  · intro r hr
    rw [if_pos hr, ← placeOf_eq]
    exact (h2 r _ (hget r hr)).1
  · intro a b ha hb e
    rw [if_pos ha, if_pos hb, ← placeOf_eq, ← placeOf_eq] at e
    by_contra hab
    have x1 := (h2 a _ (hget a ha)).2
    have x2 := (h2 b _ (hget b hb)).2
    rw [← e] at x2
    have hin : ∀ y < 2 ^ N, ∃ x < 2 ^ N, p.get x = y := by
      intro y hy
      obtain ⟨x, hx⟩ := hp.wf.get_bijective.2 y
      refine ⟨x, ?_, hx⟩
      by_contra hc
      cases hper : p.perilen with
      | none =>
        have := hp.wf.finite_bounded hper (k := x) (by omega)
        omega
      | some l =>
        have hl' := hp.wf.per_length l hper
        have h3 := (hp.wf.shift hper).mul (x / l) (x % l)
        rw [Nat.mul_comm, Nat.mod_add_div, hx] at h3
        have : 1 ≤ x / l := by
          rw [Nat.one_le_div_iff (by rw [← hl', hl]; exact Nat.two_pow_pos N)]
          omega
        have : l * 1 ≤ l * (x / l) := Nat.mul_le_mul_left _ this
        omega
    obtain ⟨x, hx, ex⟩ := hin 0 (Nat.two_pow_pos N)
    obtain ⟨y, hy, ey⟩ := hin (2 ^ a) (Nat.pow_lt_pow_right (by omega) ha)
    have c1 := x1 x hx
    have c2 := x2 x hx
    have c3 := x1 y hy
    have c4 := x2 y hy
    rw [ex, Nat.zero_testBit] at c1 c2
    rw [ey, Nat.testBit_two_pow] at c3 c4
    rw [decide_eq_true rfl] at c3
    rw [decide_eq_false hab] at c4
    revert c1 c2 c3 c4
    split <;> split <;> cases x.testBit (placeOf (l.getD a 0)) <;> cases y.testBit (placeOf (l.getD a 0)) <;> simp
  · intro r hr
    rw [if_neg (by omega)]
  · apply List.ext_getElem?
    intro r
    rw [List.getElem?_map]
    by_cases hr : r < N
    · rw [List.getElem?_range hr, Option.map_some, if_pos hr, hget r hr]
    · rw [List.getElem?_eq_none (by omega), List.getElem?_eq_none (by rw [List.length_range]; omega)]
      rfl

/-- **C136.** `SigPerm(schoute_perm=p)` succeeds whenever `schoute_to_finite_inverse(p)` does.  The result is a finite signed permutation, whose
`schoute_perm` has the values of `p` below the length of `p`, and equals `p` if `p` is periodic. -/
theorem C136_constructor (p : Perm) (hp : Constructed p) (l : List Int) (hl : schouteToFiniteInverse p = .ok l) :
    ∃ s q, newSchoute p = .ok s ∧ Finite s ∧ s.schoutePerm = .ok q ∧ (∀ n < p.length, q.get n = p.get n) ∧ (p.perilen.isSome → q.eq p = true) := by
  by_cases hn : p.neutral = true
  · rw [(C136_other_length p).1 hn] at hl
    cases hl
    have hs : Signed (fun i => (i : Int)) 0 := ⟨by omega, by omega, fun _ _ => rfl⟩
    obtain ⟨s, s1, s2, s3, s4, s5⟩ := transpose_spec hs hs (fun i => by unfold ext; rw [if_neg (by omega), nabs_nat])
    obtain ⟨q, q1, q2, q3, q4, q5⟩ := schoute_spec s2
    have hq : ∀ n, q.get n = p.get n := by
      intro n
      rw [hp.wf.neutral_iff_get.1 hn]
      apply number_ext s2.signed
      intro i
      rw [q5, s4, nabs_nat, decide_eq_false (Int.not_lt.2 (Int.natCast_nonneg i)), Bool.xor_false]
    refine ⟨s, q, ?_, s5, q1, fun n _ => hq n, fun _ => (C05_eq_extensional q p q2 hp).2 hq⟩
    unfold newSchoute
    rw [(C136_other_length p).1 hn]
    exact s1
  · have hn : p.neutral = false := by simpa using hn
    by_cases hN : ∃ N, p.length = 2 ^ N
    · obtain ⟨N, hN⟩ := hN
      have hd := ((C136_finite_inverse p hp hn N hN).1 l).1 hl
      obtain ⟨g, g1, g2⟩ := digits_signed hp hN hd
      obtain ⟨f, f1, f2⟩ := g1.exists_inverse
      obtain ⟨s, s1, s2, s3, s4, s5⟩ := transpose_spec g1 f1 (fun i => (f2 i).2)
      obtain ⟨q, q1, q2, q3, q4, q5⟩ := schoute_spec s2
      have hpl := get_lt_length hp
      have hq : ∀ n < p.length, q.get n = p.get n := by
        intro n hnl
        apply number_ext s2.signed
        intro i
        rw [q5, s4]
        by_cases hi : i < N
        · obtain ⟨a, b⟩ := sign_iff (fun j => (f2 j).2) i
          have hfi := f1.lt i hi
          have := (hd.2 (nabs (f i)) (g (nabs (f i))) (by rw [g2, List.getElem?_map, List.getElem?_range hfi]; rfl)).2 n (by omega)
          rw [this, placeOf_eq, a, ← xor_decide]
          congr 1
          exact (decide_eq_decide.2 b).symm
        · have h2 : 2 ^ N ≤ 2 ^ i := Nat.pow_le_pow_right (by omega) (by omega)
          have := hpl n hnl
          rw [f1.fix i (by omega), nabs_nat, decide_eq_false (by omega), Bool.xor_false, Nat.testBit_lt_two_pow (by omega), Nat.testBit_lt_two_pow (by omega)]
      refine ⟨s, q, ?_, s5, q1, hq, ?_⟩
      · unfold newSchoute
        rw [hl, g2]
        exact s1
      · intro hper
        obtain ⟨k, hk⟩ := Option.isSome_iff_exists.1 hper
        rw [C05_eq_extensional q p q2 hp]
        intro n
        have hk' := hp.wf.per_length k hk
        have hkN : k = 2 ^ N := by omega
        have h1 := (hp.wf.shift hk).mul (n / k) (n % k)
        have hle : s.length ≤ N := (s2.length_le N).2 fun i hi => by rw [s4]; exact f1.fix i hi
        have h2 := q4 (n % k) (2 ^ (N - s.length) * (n / k))
        rw [← Nat.mul_assoc, ← Nat.pow_add, show s.length + (N - s.length) = N from by omega, ← hkN, Nat.mod_add_div] at h2
        rw [Nat.mul_comm, Nat.mod_add_div] at h1
        rw [h2, h1, hq _ (by rw [hk']; exact Nat.mod_lt _ (by rw [hkN]; exact Nat.two_pow_pos N))]
    · rw [(C136_other_length p).2 hn (fun N h => hN ⟨N, h⟩)] at hl
      cases hl

/-- the arguments, from which the signed permutation is found again -/
theorem found {s : SigPerm} (hs : Finite s) {q : Perm} (hq : s.schoutePerm = .ok q) {p : Perm} (hp : Constructed p) (hlen : p.length = q.length)
    (hneu : p.neutral = q.neutral) (hget : ∀ n < q.length, p.get n = q.get n) :
    ∃ u l t, s.inverse = .ok u ∧ u.sequence = .ok l ∧ schouteToFiniteInverse p = .ok l ∧ newSchoute p = .ok t ∧ Finite t ∧ Canon t ∧ t.val = s.val := by
  obtain ⟨q', q1, q2, q3, q4, q5⟩ := schoute_spec hs.wf
  rw [hq] at q1
  cases q1
  obtain ⟨u, u1, u2, u3, u4, u5, u6⟩ := inverse_spec hs.wf
  have hul := inverse_length hs.wf u2 u5 u6
  obtain ⟨p1, p2⟩ := C135_period s hs q hq
  have hsu := u2.signed
  rw [hul] at hsu
  obtain ⟨t, t1, t2, t3, t4, t5⟩ := transpose_spec hsu hs.wf.signed u5
  have hseq : schouteToFiniteInverse p = .ok ((List.range u.length).map u.val) := by
    cases hsn : s.neutral with
    | true =>
      have : q.neutral = true := p1.2 hsn
      rw [(C136_other_length p).1 (by rw [hneu, this])]
      have : s.length = 0 := by
        have := (hs.wf.length_le 0).2 (fun i _ => hs.wf.neutral_iff.1 hsn i)
        omega
      rw [hul, this]
      rfl
    | false =>
      have hqn : q.neutral = false := by
        cases h : q.neutral with
        | false => rfl
        | true => rw [p1.1 h] at hsn; cases hsn
      have hql := (p2 hsn).2
      rw [(C136_finite_inverse p hp (by rw [hneu, hqn]) s.length (by rw [hlen, hql])).1]
      refine ⟨by simp [hul], ?_⟩
      intro r z hz
      rw [List.getElem?_map] at hz
      have hr : r < u.length := by
        by_contra hc
        rw [List.getElem?_eq_none (by rw [List.length_range]; omega)] at hz
        cases hz
      rw [List.getElem?_range hr, Option.map_some] at hz
      cases hz
      rw [hul] at hr
      rw [placeOf_eq]
      refine ⟨hsu.lt r hr, ?_⟩
      intro n hn
      rw [hget n (by omega)]
      obtain ⟨a, b⟩ := sign_iff u6 r
      have := q5 n (nabs (u.val r))
      rw [a] at this
      rw [this, ← xor_decide]
      congr 1
      exact decide_eq_decide.2 b
  refine ⟨u, _, t, u1, u2.sequence_none, hseq, ?_, t5, t3, t4⟩
  unfold newSchoute
  rw [hseq, hul]
  exact t1

theorem neutral_length {p : Perm} (hp : P.Constructed p) (hn : p.neutral = true) : p.length = 0 :=
  (hp.wf.neutral_perilen hn).2

/-- **C136.** Round trip: from the `schoute_perm` of a signed permutation `s`, `schoute_to_finite_inverse` gives the sequence of the inverse of `s`, and
`SigPerm(schoute_perm=...)` gives `s` again.  This works also for a finite permutation with the same values and for the list of values. -/
theorem C136_round_trip (s : SigPerm) (hs : Finite s) (hc : s.binv.length = s.length) (q : Perm) (hq : s.schoutePerm = .ok q) :
    ∃ u l t, s.inverse = .ok u ∧ u.sequence = .ok l ∧ t.eq s = true ∧ schouteToFiniteInverse q = .ok l ∧ newSchoute q = .ok t ∧
      (∀ p, P.Constructed p → p.perilen = none → p.length = q.length → (∀ n < q.length, p.get n = q.get n) →
        schouteToFiniteInverse p = .ok l ∧ newSchoute p = .ok t) ∧
      schouteListToFiniteInverse ((List.range q.length).map q.get) = .ok l ∧ newSchouteList ((List.range q.length).map q.get) = .ok t := by
  obtain ⟨q', q1, q2, q3, q4, q5⟩ := schoute_spec hs.wf
  rw [hq] at q1
  cases q1
  obtain ⟨p1, p2⟩ := C135_period s hs q hq
  obtain ⟨u, l, t, u1, u2, t1, t2, t3, t4, t5⟩ := found hs hq q2 rfl rfl (fun _ _ => rfl)
  have hsame : ∀ p, P.Constructed p → p.length = q.length → p.neutral = q.neutral → (∀ n < q.length, p.get n = q.get n) →
      schouteToFiniteInverse p = .ok l ∧ newSchoute p = .ok t := by
    intro p hp hl hn hg
    obtain ⟨u', l', t', u1', u2', t1', t2', t3', t4', t5'⟩ := found hs hq hp hl hn hg
    rw [u1] at u1'
    cases u1'
    rw [u2] at u2'
    cases u2'
    refine ⟨t1', ?_⟩
    unfold newSchoute at t2 ⊢
    rw [t1] at t2
    rw [t1']
    exact t2
  have hlist : ∃ p, mkPerm (.seq ((List.range q.length).map q.get)) (some ((List.range q.length).map q.get).length) = .ok p ∧ P.Constructed p ∧ p.length = q.length ∧
      p.neutral = q.neutral ∧ ∀ n < q.length, p.get n = q.get n := by
    by_cases hn : q.neutral = true
    · refine ⟨neutralPerm, ?_, constructed_of (arg := .seq []) (l := some 0) trivial (by decide +kernel), ?_, by rw [hn]; rfl, ?_⟩
      · rw [neutral_length q2 hn]
        exact (by decide +kernel : mkPerm (.seq []) (some 0) = .ok neutralPerm)
      · rw [neutral_length q2 hn]
        rfl
      · rw [neutral_length q2 hn]
        intro n h
        omega
    · have hn' : q.neutral = false := by simpa using hn
      have hsn : s.neutral = false := by
        cases h : s.neutral with
        | false => rfl
        | true => exact absurd (p1.2 h) hn
      obtain ⟨hper, hlen⟩ := p2 hsn
      have hpos : 0 < q.length := by rw [hlen]; exact Nat.two_pow_pos _
      obtain ⟨p, m1, m2, m3, m4⟩ := mkPerm_periodic (f := q.get) (n := q.length) (get_lt_length q2) (fun _ _ _ _ e => q2.wf.get_bijective.1 e) hpos
      have hget : p.get = q.get := by
        rw [m4]
        funext n
        unfold per
        have := (q2.wf.shift hper).mul (n / q.length) (n % q.length)
        rw [← hlen, Nat.mul_comm, Nat.mod_add_div] at this
        rw [this]
      have hpn : p.neutral = false := by
        cases h : p.neutral with
        | false => rfl
        | true =>
          rw [m2.wf.neutral_iff_get, hget, ← q2.wf.neutral_iff_get] at h
          exact absurd h hn
      rcases m3 with h | h
      · rw [h] at hpn; cases hpn
      · obtain ⟨k, hk⟩ := Option.isSome_iff_exists.1 h
        have d1 : k ∣ q.length := m2.wf.perilen_dvd hk (fun i => by
          have := (q2.wf.shift hper).mul 1 i
          rw [← hlen, Nat.one_mul] at this
          rw [hget]
          exact this)
        have d2 : q.length ∣ k := by
          rw [hlen]
          exact q2.wf.perilen_dvd hper (fun i => by
            have := (m2.wf.shift hk).mul 1 i
            rw [Nat.one_mul, hget] at this
            exact this)
        refine ⟨p, by rw [List.length_map, List.length_range]; exact m1, m2, ?_, by rw [hpn, hn'], fun n _ => by rw [hget]⟩
        rw [m2.wf.per_length k hk]
        exact Nat.dvd_antisymm d1 d2
  obtain ⟨p, pm, pc, pl, pn, pg⟩ := hlist
  refine ⟨u, l, t, u1, u2, (eq_iff t3.wf hs.wf t4 hc).2 t5, t1, t2, ?_, ?_, ?_⟩
  · intro p hp hper hl hg
    apply hsame p hp hl _ hg
    cases hn : q.neutral with
    | true =>
      have : p.length = 0 := by rw [hl, neutral_length q2 hn]
      rw [hp.wf.neutral_iff_get]
      intro i
      exact hp.wf.finite_bounded hper (by omega)
    | false =>
      cases h : p.neutral with
      | false => rfl
      | true =>
        have h0 := neutral_length hp h
        cases hsn : s.neutral with
        | true => rw [p1.2 hsn] at hn; cases hn
        | false =>
          have := (p2 hsn).2
          have := Nat.two_pow_pos s.length
          omega
  · unfold schouteListToFiniteInverse
    rw [pm]
    exact (hsame p pc pl pn pg).1
  · unfold newSchouteList schouteListToFiniteInverse
    rw [pm]
    exact (hsame p pc pl pn pg).2

/-- **C136.** Not every periodic permutation with length `2 ** N` is accepted. -/
theorem C136_rejected : ∃ p, mkPerm (.seq [0, 2, 3, 1]) (some 4) = .ok p ∧ schouteToFiniteInverse p = .error .assertion := by
  refine ⟨⟨false, [(1, 2), (2, 3), (3, 1)], some 4, 4⟩, by decide +kernel, ?_⟩
  apply (C136_finite_inverse _ (constructed_of (arg := .seq [0, 2, 3, 1]) (l := some 4) trivial (by decide +kernel)) rfl 2 rfl).2
  rintro ⟨l, h1, h2⟩
  obtain ⟨h3, h4⟩ := h2 1 (l[1]'(by omega)) (List.getElem?_eq_getElem (by omega))
  generalize l[1]'(by omega) = z at h3 h4
  have a0 := h4 0 (by omega)
  have a1 := h4 1 (by omega)
  have a2 := h4 2 (by omega)
  revert h3 a0 a1 a2
  generalize placeOf z = k
  intro hk
  by_cases hz : z < 0
  · simp only [if_pos hz]
    intro a0
    rw [Nat.zero_testBit] at a0
    exact absurd a0 (by decide +kernel)
  · simp only [if_neg hz]
    intro _ a1 a2
    have : k = 0 ∨ k = 1 := by omega
    rcases this with rfl | rfl
    · exact absurd a2 (by decide +kernel)
    · exact absurd a1 (by decide +kernel)

example : atompatternToSignedIndex [true, true, false, false] = .ok (1, true) := by
  rw [(C136_atompattern _ 2 rfl).1]
  exact ⟨by omega, by decide⟩
example : atompatternToSignedIndex [false, true, true, false] = .error .assertion := by
  apply (C136_atompattern _ 2 rfl).2
  rintro k neg ⟨h1, h2⟩
  have : k = 0 ∨ k = 1 := by omega
  have b0 := h2 0 (by omega)
  have b1 := h2 1 (by omega)
  have b2 := h2 2 (by omega)
  rcases this with rfl | rfl <;> cases neg <;> revert b0 b1 b2 <;> decide
example : ∃ p, mkPerm (.seq [4, 0, 5, 1, 6, 2, 7, 3]) (some 8) = .ok p ∧ schouteToFiniteInverse p = .ok [1, 2, -1] := by
  refine ⟨⟨false, [(0, 4), (1, 0), (2, 5), (3, 1), (4, 6), (5, 2), (6, 7), (7, 3)], some 8, 8⟩, by decide +kernel, ?_⟩
  rw [(C136_finite_inverse _ (constructed_of (arg := .seq [4, 0, 5, 1, 6, 2, 7, 3]) (l := some 8) trivial (by decide +kernel)) rfl 3 rfl).1]
  refine ⟨rfl, ?_⟩
  intro r z hr
  have h3 : r < 3 := (List.getElem?_eq_some_iff.1 hr).1
  rcases (by omega : r = 0 ∨ r = 1 ∨ r = 2) with rfl | rfl | rfl <;> cases hr <;> decide +kernel
example : ∃ s, new { sequence := some [-3, 0, 1] } = .ok s ∧ Finite s ∧ s.binv.length = s.length := by
  obtain ⟨s, s1, s2, s3, s4⟩ := buildSequence_spec (f := fun i => if i < 3 then ([-3, 0, 1] : List Int).getD i 0 else i) (N := 3)
    ⟨by decide, fun i j hi hj => by
      rcases (by omega : i = 0 ∨ i = 1 ∨ i = 2) with rfl | rfl | rfl <;> rcases (by omega : j = 0 ∨ j = 1 ∨ j = 2) with rfl | rfl | rfl <;> decide, fun i hi => by rw [if_neg (by omega)]⟩
  exact ⟨s, s1, finite_of_sequence s1 s2, s3⟩

end Verif.SG
