import Verif.Boolf.Model3

/-!
# Model of `Boolf` (boolf/), part 4: filtrates and pairs of atoms

Lists of atoms are lists of integers; sets and tuples of atoms are not modelled.
-/

namespace Verif.BF
open Verif.Py Verif.BV Verif.P Verif.W
open Verif.A hiding Mat

/-- boolf/methods/filtrated_boolf/__init__.py:35-36 for the remaining pairs (`small_spotkey`, `big_spotkey`) -/
def filtrateLoop (root : Binv) : List (Nat × Nat) → List Bool → Except Err (List Bool)
  | [], small => .ok small
  | (smallKey, bigKey) :: rest, small =>
    match small[smallKey]? with
    | some x =>
      match root.getItem bigKey with
      | .ok y => filtrateLoop root rest (small.set smallKey (x || y))
      | .error e => .error e
    | none => .error .indexError

/-- boolf/methods/filtrated_boolf/__init__.py:9-38; column `n` of `long_matrix` (lines 30-33) is the list of the entries `n` of the patterns. -/
noncomputable def Boolf.filtratedBoolf (f : Boolf) (smallAtomvals : List Int) : Except Err Boolf :=
  if smallAtomvals.all (fun a => (f.atomvals.map Int.ofNat).contains a) then do
    let smallAtomkeys ← smallAtomvals.mapM fun a => indexOf f.atomvals a.toNat
    let patterns ← smallAtomkeys.mapM fun k : Nat => makeAtompattern k f.valency
    let longSequence ← (List.range (2 ^ f.valency)).mapM fun n => do return (← ofBools (patterns.map fun p => p.vector.getD n false)).intval
    let smallTruthtable ← filtrateLoop f.root longSequence.zipIdx (List.replicate (2 ^ smallAtomvals.length) false)
    newTT (.list (smallTruthtable.map fun b => (b.toNat : Int))) (some smallAtomvals)
  else .error .atomvalsMismatch

/-- python `combinations(range(n), 2)` -/
def pairsBelow (n : Nat) : List (Nat × Nat) :=
  (List.range n).flatMap fun a => (List.range' (a + 1) (n - (a + 1))).map fun b => (a, b)

/-- boolf/metributes/_basics/filtrated_pairs/__init__.py:13-17, one entry -/
noncomputable def Boolf.filtratedEntry (f : Boolf) (a b : Nat) : Except Err (List Char) :=
  match f.atomvals[a]?, f.atomvals[b]? with
  | some x, some y => do
    let boolf ← f.filtratedBoolf [(x : Int), (y : Int)]
    let binv ← boolf.tt (.atoms [(x : Int), (y : Int)])
    return binv.string
  | _, _ => .error .indexError

/-- boolf/metributes/_basics/filtrated_pairs/__init__.py:6-19 -/
noncomputable def Boolf.filtratedPairs (f : Boolf) : Except Err (Dict (Nat × Nat) (List Char)) := do
  return Dict.ofPairs (← (pairsBelow f.valency).mapM fun p => do return (p, ← f.filtratedEntry p.1 p.2))

/-- `filtrated_pairs[(a, b)]` for integers -/
def pairGet (d : Dict (Nat × Nat) (List Char)) (a b : Int) : Except Err (List Char) :=
  if 0 ≤ a ∧ 0 ≤ b then
    match d.get? (a.toNat, b.toNat) with
    | some s => .ok s
    | none => .error .keyError
  else .error .keyError

/-- boolf/methods/filtrated_pair/__init__.py:1-16 -/
noncomputable def Boolf.filtratedPair (f : Boolf) (a b : Int) : Except Err (List Char) :=
  if a < f.valency ∧ b < f.valency then
    if a < b then do pairGet (← f.filtratedPairs) a b
    else do
      let rawResult ← pairGet (← f.filtratedPairs) b a
      if rawResult = ['1', '0', '1', '1'] ∨ rawResult = ['1', '1', '0', '1'] then return rawResult.reverse
      else return rawResult
  else .error .assertion

/-- boolf/methods/atom_pair_subset/__init__.py:8, boolf/methods/atom_pair_intersect/__init__.py:8, boolf/methods/atom_pair_crossing/__init__.py:8
and boolf/methods/atom_border_in_atom_side/__init__.py:9 -/
def Boolf.checkPair (f : Boolf) (a b : Int) : Except Err Unit :=
  if a ≠ b ∧ a < f.valency ∧ b < f.valency then .ok () else .error .notPairOfAtomKeys

/-- boolf/methods/atom_pair_subset/__init__.py:6-10 -/
noncomputable def Boolf.atomPairSubset (f : Boolf) (a b : Int) : Except Err Bool := do
  f.checkPair a b
  return decide ((← f.filtratedPair a b) = ['1', '0', '1', '1'])

/-- boolf/methods/atom_pair_intersect/__init__.py:6-10 -/
noncomputable def Boolf.atomPairIntersect (f : Boolf) (a b : Int) : Except Err Bool := do
  f.checkPair a b
  return decide ((← f.filtratedPair a b) = ['0', '1', '1', '1'])

/-- boolf/methods/atom_pair_crossing/__init__.py:6-10 -/
noncomputable def Boolf.atomPairCrossing (f : Boolf) (a b : Int) : Except Err Bool := do
  f.checkPair a b
  return decide ((← f.filtratedPair a b) = ['1', '1', '1', '1'])

/-- boolf/methods/atom_border_in_atom_side/__init__.py:7-12 -/
noncomputable def Boolf.atomBorderInAtomSide (f : Boolf) (a b : Int) : Except Err Bool := do
  f.checkPair a b
  if (← f.atomPairCrossing a b) then .error .bordersCrossing
  else do
    if (← f.atomPairSubset a b) then return true
    else f.atomPairIntersect a b

/-- a/other_entry_in_pair/__init__.py:6-13 for a tuple of two natural numbers -/
def otherEntryInPair (pair : Nat × Nat) (entry : Nat) : Except Err Nat :=
  match ([pair.1, pair.2].dedup.filter (· ≠ entry)) with
  | x :: _ => .ok x
  | [] => .error .indexError

/-- boolf/metributes/atom_to_crossing_atoms/__init__.py:6-23 -/
noncomputable def Boolf.atomToCrossingAtoms (f : Boolf) : Except Err (Dict Nat (List Nat)) := do
  let crossingPairs := ((← f.filtratedPairs).filter fun p => decide (p.2 = ['1', '1', '1', '1'])).map Prod.fst
  return Dict.ofPairs (← (List.range f.valency).mapM fun k : Nat => do
    let crossing ← (crossingPairs.filter fun p => decide (p.1 = k ∨ p.2 = k)).mapM fun p => otherEntryInPair p k
    return (k, sorted crossing))

end Verif.BF
