import Verif.Walsh.Props3
import Verif.A.Zip

/-!
# Model of `Boolf` (boolf/): constructor from truth tables, atoms and fullspots; truth tables, operators, comparisons

Simplifications, valid for the whole file:
* atoms are integers, lists of atoms are lists (a tuple that gets to `.copy()` raises `AttributeError` in the code; a tuple of sorted atoms that
  does not is "sorted" by the identity);
* the cached properties are functions of the attributes set by the constructor; the dummies (`set_dummies`) are not modelled;
* `log2` is exact.
-/

namespace Verif.BF
open Verif.Py Verif.BV Verif.P Verif.W
open Verif.A hiding Mat

/-- The attributes of a `Boolf` object; boolf/__init__.py:27-28 and 48-67.  No accepted object has a negative atom. -/
structure Boolf where
  root : Binv
  atomvals : List Nat
  valency : Nat
  adicity : Nat
  isConstant : Bool := false
  isInflated : Bool := false
deriving DecidableEq, Repr

/-- boolf/__init__.py:61-67 -/
def setConstant (val : Bool) : Boolf := ⟨⟨[val]⟩, [], 0, 0, true, false⟩

/-- boolf/__init__.py:48-59; `~arg` of a negative number -/
def setUnary (arg : Int) : Boolf :=
  if arg < 0 then ⟨⟨[true, false]⟩, [(inv arg).toNat], 1, (inv arg).toNat + 1, false, false⟩
  else ⟨⟨[false, true]⟩, [arg.toNat], 1, arg.toNat + 1, false, false⟩

/-- a/sort_together/__init__.py:6-15 for a list of atoms and a list of numbers of the same length: the pairs are sorted lexicographically -/
def sortTogether (a b : List Nat) : Except Err (List Nat × List Nat) :=
  if b.length = a.length then
    let z := (a.zip b).insertionSort fun p q => p.1 < q.1 ∨ p.1 = q.1 ∧ p.2 ≤ q.2
    .ok (z.map Prod.fst, z.map Prod.snd)
  else .error .lengthMismatch

/-- perm/__init__.py:174-177 for a `WalshPerm` -/
noncomputable def applyWalsh {α : Type} (w : Walsh) (vector : List α) : Except Err (List α) := do
  let inv ← w.inverse
  (List.range vector.length).mapM fun i => do
    match vector[(← inv.get i)]? with
    | some x => .ok x
    | none => .error .indexError

/-- boolf/a/reorder_if_atomvals_not_asc/__init__.py:6-27 -/
noncomputable def reorder (binv : Binv) (atomvals : List Nat) : Except Err (Binv × List Nat) :=
  if atomvals = sorted atomvals then .ok (binv, atomvals)
  else do
    let ascIntegers := List.range atomvals.length
    let (sortedAtomvals, reorderedIntegers) ← sortTogether atomvals ascIntegers
    let finPerm ← (← mkPerm (.seq reorderedIntegers)).inverse
    let bitPermVector ← finPerm.applyOnVector (ascIntegers.map (2 ^ ·))
    let bitPerm ← newVector (bitPermVector.map Int.ofNat)
    let sortedVector ← applyWalsh bitPerm binv.vector
    return (← ofBools sortedVector, sortedAtomvals)

/-- boolf/a/deflate/__init__.py:14-28; the loop, with fuel.  The variable `valency` is always the number of remaining atoms. -/
def deflateLoop {α : Type} : Nat → List Bool → List α → Nat → Except Err (List Bool × List α)
  | 0, _, _, _ => .error .diverges
  | fuel + 1, vector, atomvals, patternIndex =>
    if (vector.map Bool.toNat).sum % 2 = 0 then
      if patternIndex ≥ atomvals.length then .ok (vector, atomvals)
      else
        match makeAtompattern patternIndex atomvals.length with
        | .error e => .error e
        | .ok pattern =>
          match vectorZipApart vector (pattern.vector.map fun b => (b.toNat : Int)) with
          | .error e => .error e
          | .ok [firstHalf, secondHalf] =>
            if firstHalf = secondHalf then deflateLoop fuel firstHalf (atomvals.eraseIdx patternIndex) 0
            else deflateLoop fuel vector atomvals (patternIndex + 1)
          | .ok _ => .error .valueError
    else .ok (vector, atomvals)

/-- boolf/a/deflate/__init__.py:6-30 -/
def deflate {α : Type} (binv : Binv) (atomvals : List α) : Except Err (Binv × List α) :=
  match deflateLoop ((atomvals.length + 1) * (atomvals.length + 2)) binv.vector atomvals 0 with
  | .error e => .error e
  | .ok (v, a) => .ok (⟨v⟩, a)

/-- a/_log/log_int/__init__.py:6-17 -/
def logInt (x : Nat) : Except Err Nat :=
  if isPowerOfTwo x then .ok (Nat.log2 x) else .error .argValue

/-- The argument `tt` of the constructor, boolf/subinit_methods/tt/__init__.py:20-34 (other types raise `ArgTypeError` or `AssertionError`). -/
inductive TT
  | bool (b : Bool)
  | list (l : List Int)
  | str (s : List Char)
  | binv (b : Binv)
  | int (n : Int)

/-- boolf/subinit_methods/tt/__init__.py:28-34, for a `tt` that is not a Boolean; `1 << arity` raises `ValueError` for a negative arity. -/
def ttBinv (tt : TT) (arity : Option Int) : Except Err Binv :=
  match arity, tt with
  | none, .list l => BV.mk { vector := some (.list l) }
  | none, .str s => BV.mk { vector := some (.str s) }
  | none, .binv b => BV.mk { vector := some (.binv b) }
  | none, _ => .error .argType
  | some n, .int i => if n < 0 then .error .valueError else BV.mk { intval := some i, length := some ((1 <<< n.toNat : Nat) : Int) }
  | some _, _ => .error .assertion

/-- python `min(l)` of a non-empty list of integers; `ValueError` for an empty one -/
def pyMin : List Int → Except Err Int
  | [] => .error .valueError
  | x :: xs => .ok (xs.foldl min x)

/-- python `max(l)` of a list of natural numbers; `ValueError` for an empty one -/
def pyMaxNat : List Nat → Except Err Nat
  | [] => .error .valueError
  | x :: xs => .ok (xs.foldl max x)

/-- boolf/subinit_methods/tt/__init__.py:50-56: the ordered table and the ordered atoms -/
noncomputable def ttAtoms (binv : Binv) : Option (List Int) → Except Err (Binv × List Nat)
  | some atomvals =>
    match pyMin atomvals with
    | .error e => .error e
    | .ok m => if m ≥ 0 then reorder binv (atomvals.map Int.toNat) else .error .atomvalNegative
  | none =>
    match logInt binv.length with
    | .error e => .error e
    | .ok valency => .ok (binv, List.range valency)

/-- boolf/subinit_methods/tt/__init__.py:36-44, the checks before the constants are sorted out -/
def ttCheck (binv : Binv) (atomvals : Option (List Int)) : Except Err Unit :=
  match atomvals with
  | some a =>
    if a.dedup.length = a.length then
      if binv.length = 2 ^ a.length then (if binv.length > 0 then .ok () else .error .argValue) else .error .sarityVectorMismatch
    else .error .atomvalsNotUnique
  | none => if binv.length > 0 then .ok () else .error .argValue

/-- boolf/subinit_methods/tt/__init__.py:36-65, without `skip_deflation` -/
noncomputable def ttDeflated (binv : Binv) (atomvals : Option (List Int)) : Except Err Boolf := do
  ttCheck binv atomvals
  if binv.weight = 0 ∨ binv.weight = binv.length then return setConstant (decide (binv.weight ≠ 0))
  let (binv, atoms) ← ttAtoms binv atomvals
  let (binv, atoms) ← deflate binv atoms
  return ⟨binv, atoms, atoms.length, (← pyMaxNat atoms) + 1, false, false⟩

/-- boolf/subinit_methods/tt/__init__.py:36-71, with `skip_deflation` -/
noncomputable def ttSkip (binv : Binv) (atomvals : Option (List Int)) : Except Err Boolf := do
  ttCheck binv atomvals
  let (binv, atoms) ← ttAtoms binv atomvals
  let adicity := (← pyMaxNat atoms) + 1
  let deflated ← ttDeflated binv none
  return ⟨binv, atoms, atoms.length, adicity, false, decide (deflated.valency < atoms.length)⟩

/-- boolf/subinit_methods/tt/__init__.py:9-71 -/
noncomputable def newTT (tt : TT) (atomvals : Option (List Int) := none) (arity : Option Int := none) (skip : Bool := false) :
    Except Err Boolf :=
  match tt with
  | .bool b => if atomvals.isSome || arity.isSome || skip then .error .argCombo else .ok (setConstant b)
  | tt => do
    let binv ← ttBinv tt arity
    if skip then ttSkip binv atomvals else ttDeflated binv atomvals

/-- boolf/subinit_methods/fs/__init__.py:6-45 -/
noncomputable def newFullspots (fullspots : List Int) (atomvals : Option (List Int) := none) (arity : Option Int := none)
    (skip : Bool := false) : Except Err Boolf :=
  if atomvals.isSome = arity.isSome then .error .argCombo
  else if fullspots.length = 0 then .ok (setConstant false)
  else
    let atomvals := atomvals.getD ((List.range (arity.getD 0).toNat).map Int.ofNat)
    if atomvals = [] then
      if fullspots.all (· = 0) then .ok (setConstant true) else .error .argMismatch
    else do
      let binv ← BV.mk { exposet := some fullspots, length := some ((1 <<< atomvals.length : Nat) : Int) }
      let (binv, atomvals) ← if skip then .ok (binv, atomvals) else deflate binv atomvals
      newTT (.binv binv) (some atomvals) none skip

/-- boolf/metributes/atomvals_integer/__init__.py:6-9 -/
def Boolf.atomvalsInteger (f : Boolf) : Except Err Nat := do
  return (← BV.mk { exposet := some (f.atomvals.map Int.ofNat) }).intval

/-- a/int_to_sierpinski_row/__init__.py:28-33, one entry: the sum of those addends whose bit is set -/
def sierpinskiEntry (addends : List Nat) (bits : List Bool) : Nat :=
  ((addends.zip bits).filter Prod.snd).foldl (fun r p => r + p.1) 0

/-- a/int_to_sierpinski_row/__init__.py:20-33 for an exposet given as a list of natural numbers -/
def sierpinskiRow (exposet : List Nat) : Except Err (List Nat) :=
  if exposet = [] then .ok [0]
  else
    let addends := exposet.map (1 <<< ·)
    (List.range (2 ^ addends.length)).mapM fun i : Nat => do
      let b ← BV.mk { intval := some (i : Int), length := some (addends.length : Int) }
      return sierpinskiEntry addends b.vector

/-- python `l.index(x)` -/
def indexOf (l : List Nat) (x : Nat) : Except Err Nat :=
  if x ∈ l then .ok (l.idxOf x) else .error .valueError

/-- boolf/__init__.py:163-166 for a natural key; boolf/metributes/atomvals_sierpinski/__init__.py:6-9 -/
def Boolf.getItem (f : Boolf) (key : Nat) : Except Err Bool := do
  let key := key &&& (← f.atomvalsInteger)
  f.root.getItem (← indexOf (← sierpinskiRow f.atomvals) key)

/-- boolf/__init__.py:168-169 -/
def Boolf.eq (f g : Boolf) : Bool := f.root.eq g.root && f.atomvals == g.atomvals

/-- The argument of `tt`, boolf/methods/tt/__init__.py:9-12; a set is any list of its elements. -/
inductive TTArg
  | noArg
  | arity (n : Int)
  | atoms (l : List Int)

/-- boolf/methods/tt/__init__.py:26-31 -/
def workAtomvals (atoms : List Nat) (aliens : List Int) : List Nat :=
  aliens.foldl (fun work alien => (work.zip atoms).map fun wc => if alien < (wc.2 : Int) then wc.1 + 1 else wc.1)
    (List.range atoms.length)

/-- boolf/methods/tt/__init__.py:8-35 -/
def Boolf.tt (f : Boolf) (arg : TTArg := .noArg) : Except Err Binv :=
  match arg with
  | .noArg => do ofBools (← (List.range (2 ^ f.adicity)).mapM f.getItem)
  | .arity n =>
    if n < 0 then .error .valueError
    else if n ≥ f.adicity then do ofBools (← (List.range (2 ^ n.toNat)).mapM f.getItem)
    else .error .argTooSmall
  | .atoms l =>
    if f.atomvals.all (fun a => l.contains (a : Int)) then do
      let aliens := (l.dedup.filter fun a => !(f.atomvals.map Int.ofNat).contains a).insertionSort (· ≤ ·)
      let work := workAtomvals f.atomvals aliens
      let integer := (← BV.mk { exposet := some (work.map Int.ofNat) }).intval
      let row ← sierpinskiRow work
      ofBools (← (List.range (2 ^ l.dedup.length)).mapM fun key => do f.root.getItem (← indexOf row (key &&& integer)))
    else .error .argMismatch

/-- boolf/methods/bitwise/__init__.py:4: the sorted union of the atoms -/
def unionAtoms (f g : Boolf) : List Nat := sorted (f.atomvals ++ g.atomvals).dedup

/-- boolf/methods/bitwise/__init__.py:1-14 -/
noncomputable def Boolf.bitwise (op : Bool → Bool → Bool) (f g : Boolf) : Except Err Boolf := do
  let atoms := (unionAtoms f g).map Int.ofNat
  let v ← f.tt (.atoms atoms)
  let w ← g.tt (.atoms atoms)
  newTT (.binv (← v.bitwise op w)) (some atoms)

/-- boolf/methods/bitwise/__init__.py:24-25 -/
noncomputable def Boolf.and (f g : Boolf) : Except Err Boolf := f.bitwise (· && ·) g
/-- boolf/methods/bitwise/__init__.py:28-29 -/
noncomputable def Boolf.or (f g : Boolf) : Except Err Boolf := f.bitwise (· || ·) g
/-- boolf/methods/bitwise/__init__.py:32-33 -/
noncomputable def Boolf.xor (f g : Boolf) : Except Err Boolf := f.bitwise Bool.xor g

/-- boolf/methods/bitwise/__init__.py:4-7, 15-21 and 36-37; `smallerLoop` is the loop of lines 18-21 (the same as in binv/methods/bitwise.py) -/
def Boolf.bitwiseLt (f g : Boolf) : Except Err Bool := do
  let atoms := (unionAtoms f g).map Int.ofNat
  let v ← f.tt (.atoms atoms)
  let w ← g.tt (.atoms atoms)
  if v.eq w then return false
  smallerLoop v w (List.range v.length)

/-- boolf/methods/bitwise/__init__.py:44-45 -/
def Boolf.bitwiseLe (f g : Boolf) : Except Err Bool := if f.eq g then .ok true else f.bitwiseLt g
/-- boolf/methods/bitwise/__init__.py:48-49 -/
def Boolf.bitwiseGe (f g : Boolf) : Except Err Bool := g.bitwiseLe f
/-- boolf/methods/bitwise/__init__.py:40-41 (like `bitwise_ge`) -/
def Boolf.bitwiseGt (f g : Boolf) : Except Err Bool := g.bitwiseLe f

/-- boolf/metributes/complement/__init__.py:4-9 and boolf/methods/bitwise/__init__.py:52-53 -/
noncomputable def Boolf.complement (f : Boolf) : Except Err Boolf :=
  newTT (.list (f.root.vector.map fun b => ((!b).toNat : Int))) (some (f.atomvals.map Int.ofNat))

/-- boolf/metributes/reverse/__init__.py:4-12; `root[::-1]` is the reversed list `vector[::-1]`. -/
noncomputable def Boolf.reverse (f : Boolf) : Except Err Boolf :=
  newTT (.list (f.root.vector.reverse.map fun b => (b.toNat : Int))) (some (f.atomvals.map Int.ofNat))

/-- boolf/metributes/quadrant/__init__.py:4-7 -/
def Boolf.quadrant (f : Boolf) : Except Err Nat :=
  match f.root.vector.head?, f.root.vector.getLast? with
  | some a, some b => .ok (a.toNat + b.toNat * 2)
  | _, _ => .error .indexError

end Verif.BF
