import Verif.Binv.Props2
import Verif.Binv.Props3
import Verif.A.Binary
import Verif.A.Logic

/-!
# Model of a/_atompatterns and a/make_linear_binv; property C29 (first part)

Not modelled here: `atompattern_to_signed_index`, arguments of wrong types.
-/

namespace Verif.W
open Verif.Py Verif.BV Verif.A

/-! ## Model -/

/-- a/_atompatterns/__init__.py:1-13, the generated list -/
def atompatternGen (signedAtomval : Int) (arity : Nat) (negate : Bool := false) : Except Err (List Bool) :=
  let negatedWithTilda := decide (signedAtomval < 0)
  let absAtomval := if negatedWithTilda then inv signedAtomval else signedAtomval
  if absAtomval < arity then
    let length := 1 <<< arity
    let halfPeriodLength := 1 <<< absAtomval.toNat
    let periodLength := halfPeriodLength <<< 1
    if negate ^^ negatedWithTilda then .ok ((List.range length).map fun i => decide (i % periodLength < halfPeriodLength))
    else .ok ((List.range length).map fun i => decide (i % periodLength ≥ halfPeriodLength))
  else .error .assertion

/-- a/_atompatterns/__init__.py:16-18 -/
def makeAtompattern (signedAtomval : Int) (arity : Nat) (negate : Bool := false) : Except Err Binv := do
  ofBools (← atompatternGen signedAtomval arity negate)

/-- a/_atompatterns/__init__.py:26-28 and 32 for a list of atoms -/
def makeAtompatternsList (atoms : List Int) : Except Err (List Binv) := atoms.mapM (makeAtompattern · atoms.length)

/-- a/_atompatterns/__init__.py:22-25 and 32 for an integer -/
def makeAtompatterns (arity : Int) : Except Err (List Binv) :=
  if arity > 0 then ((List.range arity.toNat).map Int.ofNat).mapM (makeAtompattern · arity.toNat) else .error .assertion

/-- The arguments of `make_linear_binv`; a/make_linear_binv/__init__.py:6. -/
structure LinArgs where
  walsh : Option Int := none
  arity : Option Int := none
  parity : Option Int := none
  leader : Option Int := none
  quadrant : Option Int := none
  prefab : Option (List Binv) := none

/-- a/make_linear_binv/__init__.py:15-26: the Walsh index and whether the function is odd -/
def linCoords (a : LinArgs) : Except Err (Int × Bool) :=
  match a.walsh, a.leader, a.quadrant with
  | some w, l, q =>
    let isOdd := a.parity.getD 0
    if l.isNone && q.isNone then
      if isOdd = 0 || isOdd = 1 then .ok (w, decide (isOdd = 1)) else .error .argValue
    else .error .argCombo
  | none, some l, some q =>
    if 0 ≤ q && q < 4 then
      if a.parity.isNone then
        if q = 0 || q = 3 then (indexToEvil l).map fun w : Nat => ((w : Int), decide (q = 1 ∨ q = 3))
        else (indexToOdious l).map fun w : Nat => ((w : Int), decide (q = 1 ∨ q = 3))
      else .error .argCombo
    else .error .argValue
  | _, _, _ => .error .argCombo

/-- a/make_linear_binv/__init__.py:32-36 -/
def linAtoms (arity : Nat) (prefab : Option (List Binv)) : Except Err (List Binv) :=
  match prefab with
  | some [] => .error .indexError
  | some (p :: ps) => if p.length = 2 ^ arity then .ok (p :: ps) else .error .argValue
  | none => makeAtompatterns arity

/-- a/make_linear_binv/__init__.py:39-41, for the remaining `n`; `(2 ** n) & walsh_index` is not 0 iff the digit `n` of the index (in two's
complement, if it is negative) is 1. -/
def linLoop (walshIndex : Int) (atomPatterns : List Binv) : List Nat → Binv → Except Err Binv
  | [], binv => .ok binv
  | n :: ns, binv =>
    if walshIndex / 2 ^ n % 2 = 1 then
      match atomPatterns[n]? with
      | none => .error .indexError
      | some p => match binv.xor p with
        | .error e => .error e
        | .ok binv' => linLoop walshIndex atomPatterns ns binv'
    else linLoop walshIndex atomPatterns ns binv

/-- a/make_linear_binv/__init__.py:12-46 -/
def makeLinearBinv (a : LinArgs) : Except Err Binv :=
  match a.arity with
  | none => .error .argCombo
  | some arity =>
    if arity > 0 then do
      let (walshIndex, isOdd) ← linCoords a
      if walshIndex < 2 ^ arity.toNat then do
        let atomPatterns ← linAtoms arity.toNat a.prefab
        let zero ← ofBools (List.replicate (2 ^ arity.toNat) false)
        let binv ← linLoop walshIndex atomPatterns (List.range arity.toNat) zero
        if isOdd then binv.complement else .ok binv
      else .error .argTooBig
    else .error .argValue

/-! ## Specification and lemmas -/

/-- the sum modulo 2 of `f 0, …, f (n-1)` -/
def bsum : Nat → (Nat → Bool) → Bool
  | 0, _ => false
  | n + 1, f => bsum n f ^^ f n

theorem bsum_count (n : Nat) (f : Nat → Bool) : bsum n f = decide ((List.range n).countP f % 2 = 1) := by
  induction n with
  | zero => rfl
  | succ n ih =>
    rw [bsum, ih, List.range_succ, List.countP_append]
    have h2 := Nat.mod_two_eq_zero_or_one ((List.range n).countP f)
    cases hf : f n
    · simp [hf]
    · have : ([n].countP f) = 1 := by simp [hf]
      rw [this]
      rcases h2 with h2 | h2 <;> simp [h2, Nat.add_mod]

theorem bsum_congr {n : Nat} {f g : Nat → Bool} (h : ∀ i < n, f i = g i) : bsum n f = bsum n g := by
  induction n with
  | zero => rfl
  | succ n ih => rw [bsum, bsum, ih (fun i hi => h i (by omega)), h n (by omega)]

theorem bsum_xor (n : Nat) (f g : Nat → Bool) : bsum n (fun i => f i ^^ g i) = (bsum n f ^^ bsum n g) := by
  induction n with
  | zero => rfl
  | succ n ih => simp only [bsum]; rw [ih]; cases bsum n f <;> cases bsum n g <;> cases f n <;> cases g n <;> rfl

theorem bsum_and (n : Nat) (c : Bool) (f : Nat → Bool) : bsum n (fun i => c && f i) = (c && bsum n f) := by
  induction n with
  | zero => simp [bsum]
  | succ n ih => simp only [bsum]; rw [ih]; cases c <;> simp

theorem bsum_false {n : Nat} {f : Nat → Bool} (h : ∀ i < n, f i = false) : bsum n f = false := by
  induction n with
  | zero => rfl
  | succ n ih => rw [bsum, ih (fun i hi => h i (by omega)), h n (by omega)]; rfl

theorem bsum_single {n k : Nat} (hk : k < n) {f : Nat → Bool} (h : ∀ i < n, i ≠ k → f i = false) : bsum n f = f k := by
  induction n with
  | zero => omega
  | succ n ih =>
    rw [bsum]
    by_cases hkn : k = n
    · subst hkn
      rw [bsum_false (fun i hi => h i (by omega) (by omega))]
      simp
    · rw [ih (by omega) (fun i hi => h i (by omega)), h n (by omega) (by omega)]
      simp

theorem bsum_comm (m n : Nat) (f : Nat → Nat → Bool) :
    bsum m (fun i => bsum n (fun j => f i j)) = bsum n (fun j => bsum m (fun i => f i j)) := by
  induction m with
  | zero => simp only [bsum]; rw [bsum_false (fun _ _ => rfl)]
  | succ m ih => simp only [bsum]; rw [ih, bsum_xor]

theorem bsum_mono {m n : Nat} (h : m ≤ n) {f : Nat → Bool} (hf : ∀ i, m ≤ i → i < n → f i = false) : bsum n f = bsum m f := by
  induction n with
  | zero => have : m = 0 := by omega
            subst this; rfl
  | succ n ih =>
    by_cases hm : m = n + 1
    · subst hm; rfl
    · rw [bsum, ih (by omega) (fun i h1 h2 => hf i h1 (by omega)), hf n (by omega) (by omega)]; simp

theorem mod_period (i k : Nat) : (i % 2 ^ (k + 1) < 2 ^ k ↔ i.testBit k = false) := by
  have h := Nat.testBit_mod_two_pow i (k + 1) k
  have hlt := Nat.mod_lt i (Nat.two_pow_pos (k + 1))
  have e : 2 ^ (k + 1) = 2 ^ k + 2 ^ k := by rw [Nat.pow_succ]; omega
  simp only [Nat.lt_add_one, decide_true, Bool.true_and] at h
  rw [← h]
  constructor
  · intro h1
    exact Nat.testBit_lt_two_pow h1
  · intro h1
    by_contra hc
    have : i % 2 ^ (k + 1) = 2 ^ k + (i % 2 ^ (k + 1) - 2 ^ k) := by omega
    rw [this, Nat.testBit_two_pow_add_eq, Nat.testBit_lt_two_pow (by omega)] at h1
    cases h1

theorem atompattern_spec (a : Int) (n : Nat) (negate : Bool) :
    ((logicAbs a).toNat < n → makeAtompattern a n negate =
      .ok ⟨(List.range (2 ^ n)).map fun i => i.testBit (logicAbs a).toNat ^^ (negate ^^ decide (a < 0))⟩) ∧
    (n ≤ (logicAbs a).toNat → makeAtompattern a n negate = .error .assertion) := by
  have habs : (if decide (a < 0) = true then inv a else a) = logicAbs a := by
    unfold logicAbs
    simp
  have hnn := logicAbs_nonneg a
  unfold makeAtompattern atompatternGen
  simp only [habs]
  constructor
  · intro h
    rw [if_pos (by omega)]
    have h1 : ∀ k, (2 ^ k) <<< 1 = 2 ^ (k + 1) := by
      intro k
      rw [Nat.shiftLeft_eq, Nat.pow_succ 2 k]
    have h2 : ∀ k, 1 <<< k = 2 ^ k := fun k => by rw [Nat.shiftLeft_eq]; omega
    simp only [h2, h1, bind, Except.bind]
    cases hc : (negate ^^ decide (a < 0))
    · simp only [Bool.false_eq_true, if_false, ofBools_eq]
      congr 2
      apply List.map_congr_left
      intro i _
      rw [Bool.xor_false]
      have := mod_period i (logicAbs a).toNat
      cases hb : i.testBit (logicAbs a).toNat
      · rw [hb] at this
        simp only [iff_true] at this
        simp [this]
      · rw [hb] at this
        simp only [Bool.true_eq_false, iff_false, Nat.not_lt] at this
        simp [this]
    · simp only [if_true, ofBools_eq]
      congr 2
      apply List.map_congr_left
      intro i _
      rw [Bool.xor_true]
      have := mod_period i (logicAbs a).toNat
      cases hb : i.testBit (logicAbs a).toNat
      · rw [hb] at this
        simp only [iff_true] at this
        simp [this]
      · rw [hb] at this
        simp only [Bool.true_eq_false, iff_false, Nat.not_lt] at this
        simp [this]
  · intro h
    rw [if_neg (by omega)]
    rfl

/-- the pattern of atom `k` among `n` -/
def atomB (n k : Nat) : Binv := ⟨(List.range (2 ^ n)).map fun i => i.testBit k⟩

theorem makeAtompattern_nat {n k : Nat} (hk : k < n) : makeAtompattern k n = .ok (atomB n k) := by
  have h0 : logicAbs k = k := by unfold logicAbs; rw [if_neg (by omega)]
  have := (atompattern_spec k n false).1 (by rw [h0]; omega)
  rw [this, h0]
  have h1 : ¬ ((k : Int) < 0) := by omega
  simp [h1, atomB]

theorem makeAtompatterns_eq {n : Nat} (hn : 0 < n) :
    makeAtompatterns n = .ok ((List.range n).map (atomB n)) := by
  unfold makeAtompatterns
  rw [if_pos (by omega), Int.toNat_natCast]
  apply mapM_except_map
  intro k hk
  exact makeAtompattern_nat (List.mem_range.1 hk)

/-- digit `k` of an integer in two's complement -/
def wbit (w : Int) (k : Nat) : Bool := decide (w / 2 ^ k % 2 = 1)

theorem wbit_nat (w k : Nat) : wbit w k = w.testBit k := by
  unfold wbit
  rw [Nat.testBit_eq_decide_div_mod_eq]
  have : ((w : Int) / 2 ^ k % 2 = 1) ↔ (w / 2 ^ k % 2 = 1) := by
    have h : (w : Int) / 2 ^ k % 2 = ((w / 2 ^ k % 2 : Nat) : Int) := by
      rw [Int.natCast_mod, Int.natCast_div, Int.natCast_pow]; rfl
    rw [h]; omega
  simp [this]

/-- the linear function with Walsh index `w`, complemented if `p` -/
def linB (n : Nat) (w : Int) (p : Bool) : Binv :=
  ⟨(List.range (2 ^ n)).map fun i => bsum n (fun k => wbit w k && i.testBit k) ^^ p⟩

theorem linLoop_spec (n : Nat) (w : Int) (m : Nat) (hm : m ≤ n) :
    linLoop w ((List.range n).map (atomB n)) (List.range' (n - m) m)
      ⟨(List.range (2 ^ n)).map fun i => bsum (n - m) (fun k => wbit w k && i.testBit k)⟩ = .ok (linB n w false) := by
  induction m with
  | zero =>
    simp [linLoop, linB]
  | succ m ih =>
    rw [List.range'_succ, linLoop]
    have e : n - (m + 1) + 1 = n - m := by omega
    rw [e]
    have ih := ih (by omega)
    by_cases h : w / 2 ^ (n - (m + 1)) % 2 = 1
    · rw [if_pos h]
      have : ((List.range n).map (atomB n))[n - (m + 1)]? = some (atomB n (n - (m + 1))) := by
        rw [List.getElem?_map, List.getElem?_range (by omega)]; rfl
      rw [this]
      simp only [Binv.xor]
      rw [bitwise_eq _ _ _ (by simp [Binv.length, atomB])]
      simp only
      rw [← ih]
      congr 2
      apply List.ext_getElem?
      intro i
      simp only [atomB, List.getElem?_zipWith, List.getElem?_map]
      by_cases hi : i < 2 ^ n
      · rw [List.getElem?_range hi]
        simp only [Option.map_some, Option.some.injEq]
        conv_rhs => rw [← e, bsum]
        have : wbit w (n - (m + 1)) = true := by unfold wbit; simp [h]
        rw [this]; simp
      · rw [List.getElem?_eq_none (by simpa using hi)]; rfl
    · rw [if_neg h, ← ih]
      congr 2
      apply List.map_congr_left
      intro i _
      conv_rhs => rw [← e, bsum]
      have : wbit w (n - (m + 1)) = false := by unfold wbit; simp [h]
      rw [this]; simp

theorem makeLinearBinv_eq (a : LinArgs) (n : Nat) (hn : 0 < n) (ha : a.arity = some (n : Int))
    (hp : a.prefab = none ∨ a.prefab = some ((List.range n).map (atomB n))) :
    makeLinearBinv a = match linCoords a with
      | .error e => .error e
      | .ok (w, p) => if w < 2 ^ n then .ok (linB n w p) else .error .argTooBig := by
  unfold makeLinearBinv
  rw [ha]
  simp only [Int.toNat_natCast]
  rw [if_pos (by omega)]
  cases hc : linCoords a with
  | error e => rfl
  | ok wp =>
    obtain ⟨w, p⟩ := wp
    simp only [bind, Except.bind]
    by_cases hw : w < 2 ^ n
    · rw [if_pos hw, if_pos hw]
      have hat : linAtoms n a.prefab = .ok ((List.range n).map (atomB n)) := by
        unfold linAtoms
        rcases hp with hp | hp
        · rw [hp]; exact makeAtompatterns_eq hn
        · rw [hp]
          obtain ⟨m, rfl⟩ := Nat.exists_eq_succ_of_ne_zero (by omega : n ≠ 0)
          rw [List.range_succ_eq_map]
          simp [atomB, Binv.length]
      rw [hat]
      simp only [ofBools_eq]
      have := linLoop_spec n w n (Nat.le_refl n)
      have e0 : (⟨List.replicate (2 ^ n) false⟩ : Binv) =
          ⟨(List.range (2 ^ n)).map fun i => bsum (n - n) (fun k => wbit w k && i.testBit k)⟩ := by
        congr 1
        rw [Nat.sub_self]
        simp only [bsum]
        rw [List.map_const', List.length_range]
      rw [e0, List.range_eq_range' (n := n)]
      rw [Nat.sub_self] at *
      rw [List.range_eq_range' (n := n)] at this
      rw [this]
      cases p
      · rfl
      · simp only [if_true]
        rw [complement_eq]
        simp [linB]
    · rw [if_neg hw, if_neg hw]

theorem linCoords_walsh (w : Int) (p : Option Int) (n : Option Int) (pf : Option (List Binv)) :
    linCoords { walsh := some w, arity := n, parity := p, prefab := pf } =
      if p.getD 0 = 0 ∨ p.getD 0 = 1 then .ok (w, decide (p.getD 0 = 1)) else .error .argValue := by
  unfold linCoords
  simp

/-! ## C29 -/

/-- **C29.** Atom pattern: `make_atompattern(a, n, negate)` has `2 ** n` entries; entry `i` is digit `|a|` of `i`, complemented if exactly one
of `negate` and "`a` is negative" (i.e. written `~k`) holds.  It raises an AssertionError iff the atom does not fit into the arity. -/
theorem C29_atompattern (a : Int) (n : Nat) (negate : Bool) :
    ((logicAbs a).toNat < n → ∃ b, makeAtompattern a n negate = .ok b ∧ b.length = 2 ^ n ∧ ∀ i < 2 ^ n,
      b.vector[i]? = some (i.testBit (logicAbs a).toNat ^^ (negate ^^ decide (a < 0)))) ∧
    (n ≤ (logicAbs a).toNat → makeAtompattern a n negate = .error .assertion) := by
  refine ⟨fun h => ⟨_, (atompattern_spec a n negate).1 h, by simp [Binv.length], ?_⟩, (atompattern_spec a n negate).2⟩
  intro i hi
  simp [List.getElem?_map, List.getElem?_range hi]

example : makeAtompattern (-2) 2 = .ok ⟨[true, true, false, false]⟩ ∧ makeAtompattern 1 2 = .ok ⟨[false, false, true, true]⟩ ∧
    makeAtompattern 2 2 = .error .assertion := by decide

/-- **C29.** `make_atompatterns(n)` lists the patterns of the atoms `0 … n-1`, `make_atompatterns(atoms)` those of the given atoms. -/
theorem C29_atompatterns (n : Nat) :
    (0 < n → ∃ l, makeAtompatterns n = .ok l ∧ l.length = n ∧ ∀ k < n, ∃ b, l[k]? = some b ∧ b.length = 2 ^ n ∧
      ∀ i < 2 ^ n, b.vector[i]? = some (i.testBit k)) ∧
    (∀ atoms : List Int, (∀ a ∈ atoms, (logicAbs a).toNat < atoms.length) →
      ∃ l, makeAtompatternsList atoms = .ok l ∧ l.length = atoms.length ∧ ∀ j (hj : j < atoms.length), ∃ b, l[j]? = some b ∧
        b.length = 2 ^ atoms.length ∧ ∀ i < 2 ^ atoms.length,
          b.vector[i]? = some (i.testBit (logicAbs atoms[j]).toNat ^^ decide (atoms[j] < 0))) := by
  constructor
  · intro hn
    refine ⟨_, makeAtompatterns_eq hn, by simp, fun k hk => ⟨atomB n k, ?_, by simp [atomB, Binv.length], ?_⟩⟩
    · rw [List.getElem?_map, List.getElem?_range hk]; rfl
    · intro i hi
      simp [atomB, List.getElem?_map, List.getElem?_range hi]
  · intro atoms h
    have hm : makeAtompatternsList atoms = .ok (atoms.map fun a =>
        (⟨(List.range (2 ^ atoms.length)).map fun i => i.testBit (logicAbs a).toNat ^^ decide (a < 0)⟩ : Binv)) := by
      unfold makeAtompatternsList
      have := mapM_except_map (fun a => makeAtompattern a atoms.length) id (fun a =>
        (⟨(List.range (2 ^ atoms.length)).map fun i => i.testBit (logicAbs a).toNat ^^ decide (a < 0)⟩ : Binv)) atoms (by
          intro a ha
          simp only [id]
          rw [(atompattern_spec a _ false).1 (h a ha)]
          simp)
      rwa [List.map_id] at this
    refine ⟨_, hm, by simp, fun j hj => ⟨⟨(List.range (2 ^ atoms.length)).map fun i =>
      i.testBit (logicAbs atoms[j]).toNat ^^ decide (atoms[j] < 0)⟩, ?_, ?_, ?_⟩⟩
    · rw [List.getElem?_map, List.getElem?_eq_getElem hj]; rfl
    · simp [Binv.length]
    · intro i hi
      simp [List.getElem?_map, List.getElem?_range hi]

example : makeAtompatternsList [1, -1] = .ok [⟨[false, false, true, true]⟩, ⟨[true, false, true, false]⟩] := by decide

/-- **C29.** Linear function: for `walsh = w < 2 ** n` and parity `p` (0 if missing) `make_linear_binv(w, n, p)` has `2 ** n` entries, and entry
`i` is `p` plus the number of common digits 1 of `w` and `i`, modulo 2.  Given the atom patterns as prefab, the result is the same. -/
theorem C29_linear (n w : Nat) (hn : 0 < n) (hw : w < 2 ^ n) (p : Option Int) (hp : p = none ∨ p = some 0 ∨ p = some 1) :
    ∃ b, makeLinearBinv { walsh := some w, arity := some n, parity := p } = .ok b ∧
      (∀ atoms, makeAtompatterns n = .ok atoms →
        makeLinearBinv { walsh := some w, arity := some n, parity := p, prefab := some atoms } = .ok b) ∧ b.length = 2 ^ n ∧
      ∀ i < 2 ^ n, b.vector[i]? =
        some (decide ((List.range n).countP (fun k => w.testBit k && i.testBit k) % 2 = 1) ^^ decide (p = some 1)) := by
  have hw' : (w : Int) < 2 ^ n := by exact_mod_cast hw
  have hpp : p.getD 0 = 0 ∨ p.getD 0 = 1 := by rcases hp with rfl | rfl | rfl <;> simp
  have hpd : decide (p.getD 0 = 1) = decide (p = some 1) := by rcases hp with rfl | rfl | rfl <;> rfl
  refine ⟨linB n w (decide (p = some 1)), ?_, ?_, by simp [linB, Binv.length], ?_⟩
  · rw [makeLinearBinv_eq _ n hn rfl (Or.inl rfl), linCoords_walsh, if_pos hpp]
    simp only
    rw [if_pos hw', hpd]
  · intro atoms ha
    rw [makeAtompatterns_eq hn] at ha
    cases ha
    rw [makeLinearBinv_eq _ n hn rfl (Or.inr rfl), linCoords_walsh, if_pos hpp]
    simp only
    rw [if_pos hw', hpd]
  · intro i hi
    simp only [linB, List.getElem?_map, List.getElem?_range hi, Option.map_some, Option.some.injEq]
    rw [← bsum_count]
    congr 1
    apply bsum_congr
    intro k _
    rw [wbit_nat]

example : makeLinearBinv { walsh := some 3, arity := some 2 } = .ok ⟨[false, true, true, false]⟩ ∧
    makeLinearBinv { walsh := some 3, arity := some 2, parity := some 1 } = .ok ⟨[true, false, false, true]⟩ := by decide

/-- **C29.** Leader and quadrant: the function is that of the `l`-th evil number (quadrants 0 and 3) or odious number (1 and 2) as Walsh index,
complemented in the quadrants 1 and 3. -/
theorem C29_leader_quadrant (n l : Nat) (q : Nat) (hq : q < 4) (hn : 0 < n) :
    ∃ w : Nat, (if q = 0 ∨ q = 3 then indexToEvil l else indexToOdious l) = .ok w ∧
      makeLinearBinv { arity := some n, leader := some l, quadrant := some q } =
      makeLinearBinv { walsh := some w, arity := some n, parity := some (if q = 1 ∨ q = 3 then 1 else 0) } := by
  obtain ⟨e, he, _⟩ := C20_index_to_evil l
  obtain ⟨o, ho, _⟩ := C20_index_to_odious l
  have hlin : ∀ w : Nat, (if q = 0 ∨ q = 3 then indexToEvil l else indexToOdious l) = .ok w →
      linCoords { arity := some n, leader := some l, quadrant := some q } = .ok ((w : Int), decide (q = 1 ∨ q = 3)) := by
    intro w hw
    unfold linCoords
    have hq' : q = 0 ∨ q = 1 ∨ q = 2 ∨ q = 3 := by omega
    rcases hq' with rfl | rfl | rfl | rfl <;> simp only [he, ho] at hw <;> simp at hw <;> subst hw <;> simp [he, ho, Except.map]
  have key : ∀ w : Nat, (if q = 0 ∨ q = 3 then indexToEvil l else indexToOdious l) = .ok w →
      makeLinearBinv { arity := some n, leader := some l, quadrant := some q } =
      makeLinearBinv { walsh := some w, arity := some n, parity := some (if q = 1 ∨ q = 3 then 1 else 0) } := by
    intro w hw
    rw [makeLinearBinv_eq _ n hn rfl (Or.inl rfl), makeLinearBinv_eq _ n hn rfl (Or.inl rfl), hlin w hw, linCoords_walsh]
    by_cases hc : q = 1 ∨ q = 3
    · simp [hc]
    · simp [hc]
  by_cases hq' : q = 0 ∨ q = 3
  · exact ⟨e, by rw [if_pos hq']; exact he, key e (by rw [if_pos hq']; exact he)⟩
  · exact ⟨o, by rw [if_neg hq']; exact ho, key o (by rw [if_neg hq']; exact ho)⟩

example : makeLinearBinv { arity := some 2, leader := some 1, quadrant := some 3 } = .ok ⟨[true, false, false, true]⟩ ∧
    makeLinearBinv { arity := some 2, leader := some 0, quadrant := some 2 } = .ok ⟨[false, true, false, true]⟩ := by decide

/-- **C29.** Without prefab patterns the call is accepted exactly if the arity is positive and either a Walsh index below `2 ** arity` and
possibly a parity 0 or 1, or a natural leader and a quadrant 0 … 3 whose Walsh index is below `2 ** arity`, are given. -/
theorem C29_accepts (a : LinArgs) (hp : a.prefab = none) :
    (∃ b, makeLinearBinv a = .ok b) ↔ ∃ n : Nat, 0 < n ∧ a.arity = some (n : Int) ∧
      ((∃ w : Int, a.walsh = some w ∧ w < 2 ^ n ∧ a.leader = none ∧ a.quadrant = none ∧
          (a.parity = none ∨ a.parity = some 0 ∨ a.parity = some 1)) ∨
       (a.walsh = none ∧ a.parity = none ∧ ∃ l q w : Nat, q < 4 ∧ a.leader = some (l : Int) ∧ a.quadrant = some (q : Int) ∧
          (if q = 0 ∨ q = 3 then indexToEvil l else indexToOdious l) = .ok w ∧ w < 2 ^ n)) := by
  constructor
  · rintro ⟨b, hb⟩
    have hmk := hb
    unfold makeLinearBinv at hb
    cases har : a.arity with
    | none => rw [har] at hb; cases hb
    | some m =>
      rw [har] at hb
      simp only at hb
      by_cases hm : m > 0
      · obtain ⟨n, rfl⟩ := Int.eq_ofNat_of_zero_le (le_of_lt hm)
        have hn : 0 < n := by omega
        rw [makeLinearBinv_eq a n hn har (Or.inl hp)] at hmk
        refine ⟨n, hn, rfl, ?_⟩
        cases hc : linCoords a with
        | error e => rw [hc] at hmk; cases hmk
        | ok wp =>
          obtain ⟨w, p⟩ := wp
          rw [hc] at hmk
          simp only at hmk
          by_cases hw : w < 2 ^ n
          · unfold linCoords at hc
            cases hwa : a.walsh with
            | some w' =>
              left
              rw [hwa] at hc
              simp only at hc
              cases hl : a.leader <;> cases hq : a.quadrant <;> rw [hl, hq] at hc <;> simp at hc
              by_cases h1 : a.parity.getD 0 = 0 ∨ a.parity.getD 0 = 1
              swap
              · rw [if_neg h1] at hc; cases hc
              rw [if_pos h1] at hc
              cases hc
              refine ⟨w, rfl, hw, rfl, rfl, ?_⟩
              cases hpa : a.parity with
              | none => exact Or.inl rfl
              | some z => rw [hpa] at h1; simpa using h1
            | none =>
              right
              rw [hwa] at hc
              cases hl : a.leader with
              | none => rw [hl] at hc; simp at hc
              | some l =>
              cases hq : a.quadrant with
              | none => rw [hl, hq] at hc; simp at hc
              | some q =>
                rw [hl, hq] at hc
                simp only at hc
                by_cases hq4 : (0 ≤ q && q < 4) = true
                · rw [if_pos hq4] at hc
                  simp only [Bool.and_eq_true, decide_eq_true_eq] at hq4
                  cases hpa : a.parity with
                  | some z => rw [hpa] at hc; simp at hc
                  | none =>
                    rw [hpa] at hc
                    simp only [Option.isNone_none, if_true] at hc
                    have hl0 : 0 ≤ l := by
                      by_contra hneg
                      obtain ⟨h1, h2, _⟩ := C20_negative l (by omega)
                      rw [h1, h2] at hc
                      by_cases hx : (decide (q = 0) || decide (q = 3)) = true
                      · rw [if_pos hx] at hc; cases hc
                      · rw [if_neg hx] at hc; cases hc
                    obtain ⟨l', rfl⟩ := Int.eq_ofNat_of_zero_le hl0
                    obtain ⟨q', rfl⟩ := Int.eq_ofNat_of_zero_le hq4.1
                    obtain ⟨e, he, _⟩ := C20_index_to_evil l'
                    obtain ⟨o, ho, _⟩ := C20_index_to_odious l'
                    refine ⟨rfl, rfl, l', q', ?_⟩
                    by_cases hx : q' = 0 ∨ q' = 3
                    · have hx' : (decide ((q' : Int) = 0) || decide ((q' : Int) = 3)) = true := by simp; omega
                      rw [if_pos hx', he] at hc
                      simp only [Except.map, Except.ok.injEq, Prod.mk.injEq] at hc
                      refine ⟨e, by omega, rfl, rfl, by rw [if_pos hx]; exact he, ?_⟩
                      rw [← hc.1] at hw
                      exact_mod_cast hw
                    · have hx' : ¬ ((decide ((q' : Int) = 0) || decide ((q' : Int) = 3)) = true) := by simp; omega
                      rw [if_neg hx', ho] at hc
                      simp only [Except.map, Except.ok.injEq, Prod.mk.injEq] at hc
                      refine ⟨o, by omega, rfl, rfl, by rw [if_neg hx]; exact ho, ?_⟩
                      rw [← hc.1] at hw
                      exact_mod_cast hw
                · rw [if_neg hq4] at hc; cases hc
          · rw [if_neg hw] at hmk; cases hmk
      · rw [if_neg hm] at hb; cases hb
  · rintro ⟨n, hn, har, h⟩
    rcases h with ⟨w, hwa, hw, hl, hq, hpar⟩ | ⟨hwa, hpar, l, q, w, hq4, hl, hq, hw, hlt⟩
    · have : a = { walsh := some w, arity := some n, parity := a.parity } := by
        cases a; simp_all
      rw [this, makeLinearBinv_eq _ n hn rfl (Or.inl rfl), linCoords_walsh]
      have hpp : a.parity.getD 0 = 0 ∨ a.parity.getD 0 = 1 := by rcases hpar with h | h | h <;> simp [h]
      rw [if_pos hpp]
      simp only
      rw [if_pos hw]
      exact ⟨_, rfl⟩
    · have : a = { arity := some n, leader := some l, quadrant := some q } := by
        cases a; simp_all
      obtain ⟨w', hw', hmk⟩ := C29_leader_quadrant n l q hq4 hn
      rw [hw] at hw'
      cases hw'
      rw [this, hmk]
      obtain ⟨b, hb, _⟩ := C29_linear n w hn hlt (some (if q = 1 ∨ q = 3 then 1 else 0)) (by
        by_cases hc : q = 1 ∨ q = 3
        · simp [hc]
        · simp [hc])
      exact ⟨b, hb⟩

example : makeLinearBinv { walsh := some 4, arity := some 2 } = .error .argTooBig ∧
    makeLinearBinv { arity := some 2, leader := some 2, quadrant := some 0 } = .error .argTooBig ∧
    makeLinearBinv { walsh := some 1, arity := some 2, quadrant := some 0 } = .error .argCombo ∧
    makeLinearBinv { walsh := some (-1), arity := some 2 } = .ok ⟨[false, true, true, false]⟩ := by decide

end Verif.W
