import Verif.SetPart.Model
import Verif.Binv.Model

/-!
# Model of `SetPartComp` (set partitions with complementary blocks)

Elements are integers, like in `SetPart`.  The set `comp_pairs` is a duplicate-free list; python may iterate over the set in
any order, and the theorems hold for every order of the list.  Methods that change the object return the outcome (`None` or
an exception) together with the object afterwards.  `equal_part` has no labels.
-/

namespace Verif.SPC
open Verif.Py Verif.SP

/-- The attributes of a `SetPartComp` (set_part_comp/__init__.py:10-38). -/
structure SetPartComp where
  equalPart : SetPart Unit
  compPairs : List (Int × Int)
deriving DecidableEq, Repr

/-- `min(block)` -/
def minOf (block : List Int) : Int := block.foldl min (block.headD 0)

/-- set_part_comp/helpers.py:26-27 (`_pair`) -/
def pair (a b : Int) : Int × Int := if a ≤ b then (a, b) else (b, a)

/-- set_part_comp/helpers.py:12-13 (`_representative`) -/
def SetPartComp.representative (s : SetPartComp) (a : Int) : Int := minOf (s.equalPart.elementToBlock a)

/-- set_part_comp/__init__.py:12-38 for an argument `equal_part` that is a list or `None` (not a `SetPart`); `comp_pairs` in the
order in which the set is iterated. -/
def new (equalPart : Option (List (List Int))) (compPairs : Option (List (Int × Int))) : Except Err SetPartComp :=
  if equalPart.isNone && compPairs.isSome then .error .compWithoutPart
  else match newPart (equalPart.getD []) .Z with
    | .error e => .error e
    | .ok part =>
      let pairs := pySet ((compPairs.getD []).map (fun ab =>
        pair (minOf (part.elementToBlock ab.1)) (minOf (part.elementToBlock ab.2))))
      if pairs.any (fun ab => part.pairInSameBlock ab.1 ab.2) then .error .partCompMismatch
      else .ok { equalPart := part, compPairs := pairs }

/-- set_part_comp/__init__.py:42-46 with set_part_comp/helpers.py:4-9 -/
def SetPartComp.areEqual (s : SetPartComp) (a b : Int) : Bool :=
  match s.equalPart.indexOrNone a, s.equalPart.indexOrNone b with
  | some i, some j => decide (i = j)
  | _, _ => false

/-- set_part_comp/__init__.py:48-50 -/
def SetPartComp.areComp (s : SetPartComp) (a b : Int) : Bool :=
  s.compPairs.contains (pair (s.representative a) (s.representative b))

/-- set_part_comp/__init__.py:54-57 with set_part_comp/helpers.py:20-23, for the remaining pairs -/
def getCompLoop (p : SetPart Unit) (element : Int) : List (Int × Int) → Option Int
  | [] => none
  | (x, y) :: rest =>
    if (p.elementToBlock x).contains element then some y
    else if (p.elementToBlock y).contains element then some x
    else getCompLoop p element rest

/-- set_part_comp/__init__.py:52-58.  (In a pair of two equal elements the other one is the same; see set_part_comp/helpers.py:20-23.) -/
def SetPartComp.getComp (s : SetPartComp) (element : Int) : Option Int := getCompLoop s.equalPart element s.compPairs

/-- set_part_comp/__init__.py:60-64 -/
def SetPartComp.getBlock (s : SetPartComp) (element : Int) : List Int :=
  if s.equalPart.nonSingletons.contains element then s.equalPart.elementToBlock element else [element]

/-- set_part_comp/__init__.py:66-67 -/
def SetPartComp.getRepr (s : SetPartComp) (element : Int) : Int := minOf (s.getBlock element)

/-- set_part_comp/__init__.py:69-70; `==` of sets -/
def SetPartComp.eq (s t : SetPartComp) : Except Err Bool :=
  match s.equalPart.eq t.equalPart with
  | .error e => .error e
  | .ok false => .ok false
  | .ok true => .ok (s.compPairs.all (t.compPairs.contains ·) && t.compPairs.all (s.compPairs.contains ·))

/-! ### changing methods -/

/-- the next statement, unless an exception was raised -/
def andThen (r : Except Err Unit × SetPartComp) (f : SetPartComp → Except Err Unit × SetPartComp) :
    Except Err Unit × SetPartComp :=
  match r with
  | (.ok _, s) => f s
  | (.error e, s) => (.error e, s)

/-- `self.comp_pairs.add(ab)` -/
def SetPartComp.addPair (s : SetPartComp) (ab : Int × Int) : Except Err Unit × SetPartComp :=
  (.ok (), { s with compPairs := if s.compPairs.contains ab then s.compPairs else s.compPairs ++ [ab] })

/-- `self.comp_pairs.remove(ab)` -/
def SetPartComp.removePair (s : SetPartComp) (ab : Int × Int) : Except Err Unit × SetPartComp :=
  if s.compPairs.contains ab then (.ok (), { s with compPairs := s.compPairs.erase ab }) else (.error .keyError, s)

/-- `self.equal_part.merge_pair(a, b)` -/
def SetPartComp.mergePair (s : SetPartComp) (a b : Int) : Except Err Unit × SetPartComp :=
  ((s.equalPart.mergePair a b).1, { s with equalPart := (s.equalPart.mergePair a b).2 })

/-- set_part_comp/methods/set_equal/__init__.py:28-34 -/
def SetPartComp.setEqualFirstComp (s : SetPartComp) (a b aComp : Int) : Except Err Unit × SetPartComp :=
  let oldARepr := s.representative a
  andThen (s.removePair (pair oldARepr aComp)) fun s =>
  andThen (s.mergePair a b) fun s =>
  let newARepr := s.representative a
  let newACompRepr := s.representative aComp
  s.addPair (pair newARepr newACompRepr)

/-- set_part_comp/methods/set_equal/__init__.py:37-49 -/
def SetPartComp.setEqualBothComp (s : SetPartComp) (a b aComp bComp : Int) : Except Err Unit × SetPartComp :=
  let oldARepr := s.representative a
  let oldBRepr := s.representative b
  andThen (s.removePair (pair oldARepr aComp)) fun s =>
  andThen (s.removePair (pair oldBRepr bComp)) fun s =>
  andThen (s.mergePair a b) fun s =>
  andThen (s.mergePair aComp bComp) fun s =>
  let newRepr := s.representative a
  let newCompRepr := s.representative aComp
  s.addPair (pair newRepr newCompRepr)

/-- set_part_comp/methods/set_equal/__init__.py:7-25 -/
def SetPartComp.setEqual (s : SetPartComp) (a b : Int) : Except Err Unit × SetPartComp :=
  if s.areComp a b then (.error .setEqualComplements, s)
  else if s.areEqual a b then (.ok (), s)
  else match s.getComp a, s.getComp b with
    | none, none => s.mergePair a b
    | none, some bComp => s.setEqualFirstComp b a bComp
    | some aComp, none => s.setEqualFirstComp a b aComp
    | some aComp, some bComp => s.setEqualBothComp a b aComp bComp

/-- set_part_comp/methods/set_comp/__init__.py:29-34 -/
def SetPartComp.setCompFirstComp (s : SetPartComp) (a b aComp : Int) : Except Err Unit × SetPartComp :=
  let oldARepr := s.representative a
  andThen (s.removePair (pair oldARepr aComp)) fun s =>
  andThen (s.mergePair aComp b) fun s =>
  let newARepr := s.representative a
  let newBRepr := s.representative b
  s.addPair (pair newARepr newBRepr)

/-- set_part_comp/methods/set_comp/__init__.py:37-49 -/
def SetPartComp.setCompBothComp (s : SetPartComp) (a b aComp bComp : Int) : Except Err Unit × SetPartComp :=
  let oldARepr := s.representative a
  let oldBRepr := s.representative b
  andThen (s.removePair (pair oldARepr aComp)) fun s =>
  andThen (s.removePair (pair oldBRepr bComp)) fun s =>
  andThen (s.mergePair a bComp) fun s =>
  andThen (s.mergePair b aComp) fun s =>
  let newRepr := s.representative a
  let newCompRepr := s.representative aComp
  s.addPair (pair newRepr newCompRepr)

/-- set_part_comp/methods/set_comp/__init__.py:7-26 -/
def SetPartComp.setComp (s : SetPartComp) (a b : Int) : Except Err Unit × SetPartComp :=
  if s.areEqual a b then (.error .setCompEquals, s)
  else if s.areComp a b then (.ok (), s)
  else match s.getComp a, s.getComp b with
    | none, none => s.addPair (pair (s.representative a) (s.representative b))
    | none, some bComp => s.setCompFirstComp b a bComp
    | some aComp, none => s.setCompFirstComp a b aComp
    | some aComp, some bComp => s.setCompBothComp a b aComp bComp

/-! ### derived values -/

/-- set_part_comp/__init__.py:83-87 -/
def SetPartComp.relatedPart (s : SetPartComp) : Except Err (SetPart Unit) :=
  mergeAll (newPart s.equalPart.blocks .Z) s.compPairs

/-- set_part_comp/__init__.py:89-90 -/
def SetPartComp.numberOfRelatedBlocks (s : SetPartComp) : Except Err Nat :=
  match s.relatedPart with
  | .ok p => .ok p.blocks.length
  | .error e => .error e

/-- set_part_comp/__init__.py:92-93; `max` of the empty set is a `ValueError`. -/
def SetPartComp.length (s : SetPartComp) : Except Err Int :=
  match s.relatedPart with
  | .error e => .error e
  | .ok p => match pyMinMax p.nonSingletons with
    | .ok (_, high) => .ok (high + 1)
    | .error e => .error e

/-- set_part_comp/__init__.py:95-99 -/
def SetPartComp.affectedElements (s : SetPartComp) : Except Err (List Int) :=
  match s.relatedPart with
  | .error e => .error e
  | .ok p => .ok (sortZ (pySet p.blocks.flatten))

/-- set_part_comp/__init__.py:101-102 -/
def SetPartComp.numberOfAffectedElements (s : SetPartComp) : Except Err Nat :=
  match s.affectedElements with
  | .ok l => .ok l.length
  | .error e => .error e

/-- set_part_comp/methods/all_complement_pairs/__init__.py:1-15 -/
def SetPartComp.allComplementPairs (s : SetPartComp) : List (Int × Int) :=
  pySet (s.compPairs.flatMap (fun ab => (s.getBlock ab.1).flatMap (fun x => (s.getBlock ab.2).map (fun y => pair x y))))

/-- binv/__init__.py:106-107 for an integer: negative ones are not in the exposet. -/
def hasIndexZ (b : Verif.BV.Binv) (key : Int) : Bool := decide (0 ≤ key) && b.hasIndex key.toNat

/-- set_part_comp/methods/int_matches/__init__.py:5-22 -/
def SetPartComp.intMatches (s : SetPartComp) (intval : Nat) : Except Err Bool :=
  let intvalLength := Verif.BV.binaryLength intval
  match s.numberOfRelatedBlocks with
  | .error e => .error e
  | .ok minLength =>
    let length := if intvalLength > minLength then intvalLength else minLength
    match Verif.BV.mk { intval := some intval, length := some length } with
    | .error e => .error e
    | .ok binv =>
      .ok (s.equalPart.blocks.all (fun block => decide ((pySet (block.map (hasIndexZ binv))).length = 1)) &&
        s.compPairs.all (fun ab => decide ((pySet [hasIndexZ binv ab.1, hasIndexZ binv ab.2]).length = 2)))

end Verif.SPC
