import Verif.Perm.InvModel
import Verif.Binv.Model
import Verif.A.Logic

/-!
# Model of `SigPerm` (signed permutations, sig_perm/)

Not modelled here: the argument `schoute_perm` (see FromSchoute.lean).  Not modelled: multiplication with something else than a `SigPerm`, `__pow__` (its body is `pass`).
The cached properties are functions of the attributes set by the constructor (no modelled method changes them later).
-/

namespace Verif.SG
open Verif.Py Verif.P Verif.BV Verif.A

/-! ### matrices -/

/-- A two-dimensional numpy array of integers; only the entries below `rows` and `cols` count. -/
structure Mat where
  rows : Nat
  cols : Nat
  get : Nat → Nat → Int

/-- `mat.transpose()` -/
def Mat.transpose (m : Mat) : Mat := ⟨m.cols, m.rows, fun i j => m.get j i⟩

/-- `np.dot(a, b)` of two matrices with fitting shapes -/
def Mat.dot (a b : Mat) : Mat := ⟨a.rows, b.cols, fun i j => ((List.range a.cols).map (fun k => a.get i k * b.get k j)).sum⟩

/-- sig_perm/a/matrix_to_sequence/__init__.py:6-23 (without `inverse`, which is nowhere used) -/
def matrixToSequence (mat : Mat) : Except Err (List Int) :=
  if mat.rows = mat.cols then
    .ok ((List.range mat.rows).flatMap fun n => (List.range mat.rows).filterMap fun m =>
      if mat.get m n = 1 then some (m : Int) else if mat.get m n = -1 then some (inv m) else none)
  else .error .valueError

/-- sig_perm/a/sequence_to_matrix/__init__.py:6-19 (without `inverse`); `mat[i, j] = …` raises `IndexError` beyond the size. -/
def sequenceToMatrix (sequence : List Int) : Except Err Mat :=
  if sequence.all (fun e => decide (logicAbs e < sequence.length)) then
    .ok ⟨sequence.length, sequence.length, fun m n => match sequence[n]? with
      | some e => if logicAbs e = m then (if e < 0 then -1 else 1) else 0
      | none => 0⟩
  else .error .indexError

/-! ### constructor -/

/-- The attributes of a `SigPerm`; sig_perm/__init__.py:97-112. -/
structure SigPerm where
  perm : Perm
  length : Nat
  binv : Binv
  unsigned : Bool
  unmoved : Bool
  neutral : Bool
deriving DecidableEq, Repr

/-- The arguments `valneg` and `keyneg`: a `Binv`, a list or tuple of zeros and ones, a set of integers (as a list of its
elements), or a string. -/
inductive NegArg
  | binv (b : Binv)
  | list (l : List Int)
  | set (l : List Int)
  | str (s : List Char)

/-- The argument `perm`: a `Perm`, or what its constructor accepts. -/
inductive PermArg
  | perm (p : Perm)
  | arg (a : P.Arg)

/-- The arguments of the constructor; sig_perm/__init__.py:16-24. -/
structure Args where
  valneg : Option NegArg := none
  valnegIndex : Option Int := none
  keyneg : Option NegArg := none
  keynegIndex : Option Int := none
  perm : Option PermArg := none
  permIndex : Option Int := none
  pair : Option (Int × Int) := none
  sequence : Option (List Int) := none
  matrix : Option Mat := none

/-- sig_perm/__init__.py:31-35 and 37-41 -/
def convNeg : Option NegArg → Except Err (Option NegArg)
  | some (.list l) => (BV.mk { vector := some (.list l) }).map (fun b => some (.binv b))
  | some (.set l) => (BV.mk { exposet := some l }).map (fun b => some (.binv b))
  | a => .ok a

/-- sig_perm/__init__.py:43-45 -/
def convPerm : Option PermArg → Except Err (Option PermArg)
  | some (.arg (.seq l)) => (mkPerm (.seq l)).map (fun p => some (.perm p))
  | some (.arg (.cycles l)) => (mkPerm (.cycles l)).map (fun p => some (.perm p))
  | a => .ok a

/-- a/have_only/__init__.py:14-16 when something else than `pair` was given: `all_args.count(None)` compares the arguments (sig_perm/__init__.py:26-29, as they
were passed) with `None`, one after the other.  This raises `AssertionError` for a `Binv` (binv/__init__.py:116-117), `OtherNotPermError` for a `Perm`
(perm/__init__.py:97-98) and `ValueError` for the truth value of a numpy array with more than one entry. -/
def comboError (a : Args) : Err :=
  match a.valneg, a.keyneg, a.perm, a.matrix with
  | some (.binv _), _, _, _ => .assertion
  | _, some (.binv _), _, _ => .assertion
  | _, _, some (.perm _), _ => .otherNotPerm
  | _, _, _, some m => if 1 < m.rows * m.cols then .valueError else .argCombo
  | _, _, _, none => .argCombo

/-- sig_perm/__init__.py:47-48, with a/have_only/__init__.py:4-18 -/
def usePair (a : Args) : Except Err (Option Int × Option Int) :=
  match a.pair with
  | none => .ok (a.valnegIndex, a.permIndex)
  | some (v, p) =>
    if a.valneg.isNone && a.valnegIndex.isNone && a.keyneg.isNone && a.keynegIndex.isNone && a.perm.isNone &&
        a.permIndex.isNone && a.sequence.isNone && a.matrix.isNone then .ok (some v, some p)
    else .error (comboError a)

/-- sig_perm/__init__.py:50-51 and 53-54 -/
def useNegIndex (neg : Option NegArg) : Option Int → Except Err (Option NegArg)
  | some n => (BV.mk { intval := some n }).map (fun b => some (.binv b))
  | none => .ok neg

/-- sig_perm/__init__.py:56-58 with a/int_to_perm/__init__.py:9 -/
def usePermIndex (perm : Option PermArg) : Option Int → Except Err (Option PermArg)
  | some n => if 0 ≤ n then (intToPerm n.toNat).map (fun p => some (.perm p)) else .error .valueError
  | none => .ok perm

/-- sig_perm/__init__.py:106-112 -/
def build (perm : Perm) (rawBinv : Binv) : Except Err SigPerm :=
  let length := max rawBinv.requiredLength perm.length
  match ofBools (rawBinv.vector ++ List.replicate (length - rawBinv.length) false) with
  | .error e => .error e
  | .ok binv =>
    let unsigned := decide (binv.intval = 0)
    let unmoved := perm.neutral
    .ok ⟨perm, length, binv, unsigned, unmoved, unsigned && unmoved⟩

/-- sig_perm/__init__.py:88-97 and 106-112 -/
def buildValneg (valneg : NegArg) (perm : PermArg) : Except Err SigPerm := do
  let rawBinv ← match valneg with
    | .binv b => .ok b
    | .set l => BV.mk { exposet := some l }
    | .list l => BV.mk { vector := some (.list l) }
    | .str s => BV.mk { vector := some (.str s) }
  let perm ← match perm with
    | .perm p => .ok p
    | .arg a => mkPerm a
  build perm rawBinv

/-- sig_perm/__init__.py:99-112 -/
def buildSequence (sequence : List Int) : Except Err SigPerm := do
  let naturalSequence := sequence.map logicAbs
  let perm ← mkPerm (.seq (naturalSequence.map Int.toNat))
  let negatorExposet := (sequence.filter (· < 0)).map inv
  let rawBinv ← BV.mk { exposet := some negatorExposet }
  build perm rawBinv

/-- sig_perm/__init__.py:65-71; a string or dict has no attribute `required_length` or `length`. -/
def keynegSequence : NegArg → PermArg → Except Err (List Int)
  | .binv keyneg, .perm perm =>
    let length := max keyneg.requiredLength perm.length
    .ok ((List.range length).map (fun key => logicNegate (perm.get key) (keyneg.hasIndex key)))
  | _, _ => .error .attributeError

/-- sig_perm/__init__.py:16-112 -/
def new (a : Args) : Except Err SigPerm := do
  let keyneg ← convNeg a.keyneg
  let valneg ← convNeg a.valneg
  let perm ← convPerm a.perm
  let (valnegIndex, permIndex) ← usePair a
  let valneg ← useNegIndex valneg valnegIndex
  let keyneg ← useNegIndex keyneg a.keynegIndex
  let perm ← usePermIndex perm permIndex
  match valneg, perm, keyneg, a.sequence, a.matrix with
  | some v, some p, _, _, _ => buildValneg v p
  | none, some p, some k, _, _ => do buildSequence (← keynegSequence k p)
  | _, _, _, some s, _ => buildSequence s
  | _, _, _, none, some m => do buildSequence (← matrixToSequence m)
  | _, _, _, none, none => .error .argCombo

/-! ### attributes and methods -/

/-- sig_perm/metributes/sequence_minimal.py:6-14 -/
def SigPerm.sequenceMinimal (s : SigPerm) : Except Err (List Int) :=
  match s.perm.sequence (some s.length) with
  | .error e => .error e
  | .ok l => logicNegateVector (l.map Int.ofNat) none (some (s.binv.exposet.map Int.ofNat))

/-- sig_perm/__init__.py:114-115 for a natural index -/
def SigPerm.getItem (s : SigPerm) (i : Nat) : Except Err Int :=
  match s.sequenceMinimal with
  | .error e => .error e
  | .ok l => match l[i]? with
    | some x => .ok x
    | none => .error .indexError

/-- sig_perm/__init__.py:117-122 for a `SigPerm` -/
def SigPerm.eq (s t : SigPerm) : Bool :=
  if s.neutral && t.neutral then true else s.perm.eq t.perm && s.binv.eq t.binv

/-- sig_perm/__init__.py:117-120 and 123-126 for a `Perm` -/
def SigPerm.eqPerm (s : SigPerm) (p : Perm) : Bool :=
  if s.neutral && p.neutral then true else if s.binv.intval ≠ 0 then false else s.perm.eq p

/-- sig_perm/__init__.py:148-153 -/
def SigPerm.sequence (s : SigPerm) (length : Option Nat := none) : Except Err (List Int) :=
  match length with
  | some n => if n ≥ s.length then s.sequenceMinimal.map (· ++ (List.range' s.length (n - s.length)).map Int.ofNat)
    else .error .valueError
  | none => s.sequenceMinimal.map (· ++ (List.range' s.length (s.length - s.length)).map Int.ofNat)

/-- sig_perm/__init__.py:155-165 -/
def SigPerm.sequenceString (s : SigPerm) (length : Option Nat := none) (roundParentheses : Bool := false) :
    Except Err (List Char) :=
  (s.sequence length).map fun l =>
    let result := listStr (fun e => (if e < 0 then ['~'] else []) ++ intStr (logicAbs e)) l
    if roundParentheses then result.map (fun c => if c = '[' then '(' else if c = ']' then ')' else c) else result

/-- sig_perm/__init__.py:128-132 -/
def SigPerm.str (s : SigPerm) : Except Err (List Char) :=
  s.sequenceString.map fun r => "SigPerm(sequence=".toList ++ r ++ [')']

/-- sig_perm/__init__.py:167-172 -/
def SigPerm.matrix (s : SigPerm) (size : Option Nat := none) : Except Err Mat :=
  match size with
  | some n => if n ≥ s.length then do sequenceToMatrix (← s.sequence (some n)) else .error .valueError
  | none => do sequenceToMatrix (← s.sequence (some s.length))

/-- sig_perm/__init__.py:137-140 for two signed permutations -/
def SigPerm.mul (s t : SigPerm) : Except Err SigPerm := do
  let size := max s.length t.length
  let a ← s.matrix (some size)
  let b ← t.matrix (some size)
  new { matrix := some (a.dot b) }

/-- sig_perm/metributes/inverse.py:4-12 -/
def SigPerm.inverse (s : SigPerm) : Except Err SigPerm := do
  let m ← s.matrix
  new { matrix := some m.transpose }

/-- sig_perm/metributes/_indices/keyneg_index.py:4-12 -/
def SigPerm.keynegIndex (s : SigPerm) : Except Err Nat :=
  s.sequence.map fun l => l.zipIdx.foldl (fun result vk => if vk.1 < 0 then result + 2 ^ vk.2 else result) 0

/-- sig_perm/metributes/_indices/valneg_index.py:4-9 -/
def SigPerm.valnegIndex (s : SigPerm) : Nat := s.binv.intval

/-- sig_perm/metributes/_indices/perm_index.py:4-9 -/
def SigPerm.permIndex (s : SigPerm) : Except Err Nat := s.perm.leftRank

/-- sig_perm/metributes/_indices/pair.py:4-9 -/
def SigPerm.pair (s : SigPerm) : Except Err (Nat × Nat) := s.permIndex.map fun p => (s.valnegIndex, p)

/-- sig_perm/__init__.py:174-184; the vector has integer entries (booleans are 0 and 1, and `~` of them -1 and -2). -/
def SigPerm.applyOnVector (s : SigPerm) (vector : List Int) : Except Err (List Int) := do
  let inverse ← s.inverse
  let inverseSequence ← inverse.sequence (some vector.length)
  inverseSequence.mapM fun signedEntry =>
    match vector[(logicAbs signedEntry).toNat]? with
    | some v => .ok (if signedEntry < 0 then inv v else v)
    | none => .error .indexError

/-- sig_perm/__init__.py:186-190 -/
def SigPerm.applyOnNaturalNumber (s : SigPerm) (n : Int) : Except Err Nat := do
  let binv ← BV.mk { intval := some n, minimalLength := some s.length }
  let newVector ← s.applyOnVector (binv.vector.map (fun b => (b.toNat : Int)))
  let newBinv ← BV.mk { vector := some (.list (newVector.map (· % 2))) }
  return newBinv.intval

end Verif.SG
