import Verif.Boolf.Model11
import Verif.Boolf.Model3
import Verif.Boolf.Model6

/-!
# Model of `Boolf` (boolf/), part 15: symmetries, families of male functions
-/

namespace Verif.BF
open Verif.Py Verif.BV Verif.P Verif.W Verif.SP
open Verif.A hiding Mat

/-! ## symmetries -/

/-- boolf/metributes/symmetric_spots/__init__.py:21-23 for the remaining spots -/
def mergeSpots (sigPerm : SG.SigPerm) : List Nat → SetPart Unit → Except Err (SetPart Unit)
  | [], result => .ok result
  | spot :: rest, result => do
    let symmetricSpot ← sigPerm.applyOnNaturalNumber spot
    let merged := result.mergePair spot symmetricSpot
    merged.1
    mergeSpots sigPerm rest merged.2

/-- boolf/metributes/symmetric_spots/__init__.py:19-23 for the remaining pairs.  A pair is given by its place in the list of pairs (see `code`); `count` is the
number of second entries. -/
def symmetricSpotsLoop (count : Nat) (spots : List Nat) : List Int → SetPart Unit → Except Err (SetPart Unit)
  | [], result => .ok result
  | element :: rest, result => do
    let sigPerm ← SG.new { pair := some (element / count, element % count) }
    symmetricSpotsLoop count spots rest (← mergeSpots sigPerm spots result)

/-- the block that is returned by `get_block_from_label`; the iteration over `None` raises an error -/
def labelledBlock (part : SetPart Boolf) (f : Boolf) : Except Err (List Int) :=
  match part.getBlockFromLabel f with
  | some block => .ok block
  | none => .error .typeError

/-- boolf/metributes/symmetric_spots/__init__.py:7-25 -/
noncomputable def Boolf.symmetricSpots (f : Boolf) : Except Err (SetPart Unit) := do
  let boolf ← f.rootBoolf
  let spots := boolf.fullspots
  let result ← newPart [] (.finite (spots.map Int.ofNat))
  let clan ← boolf.ecClan 1 none false
  let block ← labelledBlock clan.part boolf
  symmetricSpotsLoop (clan.dims.getLastD 1) spots block result

/-- boolf/metributes/perm_symmetry_partition/__init__.py:22-25 for the remaining places -/
def mergePlaces (tt : Binv) (sigPerm : SG.SigPerm) : List Nat → SetPart Unit → Except Err (SetPart Unit)
  | [], setpart => .ok setpart
  | prePlace :: rest, setpart => do
    let postPlace ← sigPerm.applyOnNaturalNumber prePlace
    if (← tt.getItem postPlace) = (← tt.getItem prePlace) then
      let merged := setpart.mergePair prePlace postPlace
      merged.1
      mergePlaces tt sigPerm rest merged.2
    else mergePlaces tt sigPerm rest setpart

/-- boolf/metributes/perm_symmetry_partition/__init__.py:20-25 for the remaining indices of permutations -/
def permSymmetryLoop (tt : Binv) (domain : List Nat) : List Int → SetPart Unit → Except Err (SetPart Unit)
  | [], setpart => .ok setpart
  | permIndex :: rest, setpart => do
    let sigPerm ← SG.new { pair := some (0, permIndex) }
    permSymmetryLoop tt domain rest (← mergePlaces tt sigPerm domain setpart)

/-- boolf/metributes/perm_symmetry_partition/__init__.py:7-27 -/
noncomputable def Boolf.permSymmetryPartition (f : Boolf) : Except Err (SetPart Unit) := do
  let boolf ← f.rootBoolf
  let tt ← boolf.tt (.arity f.adicity)
  let domain := List.range (2 ^ f.adicity)
  let setpart ← newPart [] (.finite (domain.map Int.ofNat))
  let faction ← boolf.ecFaction none false
  let block ← labelledBlock faction.part boolf
  permSymmetryLoop tt domain block setpart

/-! ## families -/

/-- boolf/metributes/_ec_reps/fast/family_malerep/__init__.py:8-26 -/
noncomputable def Boolf.familyMalerep (f : Boolf) : Except Err Boolf :=
  if f.isMale then
    if f.isConstant then .ok f
    else do
      let boolf ← f.rootBoolf
      let m ← boolf.consul
      let rep ← boolf.pairMember m 0
      if f.isRoot then return rep
      else newTT (.binv rep.root) (some (f.atomvals.map Int.ofNat))
  else .error .valueError

/-- `==` of two representatives, of which each can be `None` -/
def repEq : Option Boolf → Option Boolf → Except Err Bool
  | some f, some g => .ok (f.eq g)
  | none, none => .ok true
  | _, _ => .error .attributeError

/-- boolf/metributes/family_is_self_complementary/__init__.py:4-10.  The number of digits is compared as an exact half.  For `order` see `Boolf.familyMinrep`. -/
noncomputable def Boolf.familyIsSelfComplementary (order : List Nat → List Nat) (f : Boolf) : Except Err Bool :=
  if 2 * f.root.weight = f.root.length then do
    repEq (← f.familyMinrep order) (← (← f.complement).familyMinrep order)
  else .ok false

end Verif.BF
