import Verif.SetPart.Props5
import Verif.Binv.Model

/-!
# Model of the functions that make a `SetPart` from a sequence: `inventory_partition` and `Binv.set_part`
-/

namespace Verif.SP
open Verif.Py

variable {L : Type} [DecidableEq L]

/-- The argument of `inventory_partition`: a list or tuple, or a dict (or defaultdict) with integer keys, given by its items.  `other` is an argument of another type. -/
inductive InvArg (L : Type)
  | sequence (entries : List L)
  | dict (items : Dict Int L)
  | other

/-- a/inventory_partition/__init__.py:20-23 and a/inventory_partition/__init__.py:28-31 -/
def inventoryLoop (domain : List Int) (items : List (Int × L)) : Except Err (SetPart L) := do
  let result : SetPart L ← newPart [] (.finite domain)
  let (outcome, result) := result.addLabels items
  outcome
  return result

/-- a/inventory_partition/__init__.py:7-33 -/
def inventoryPartition : InvArg L → Except Err (SetPart L)
  | .sequence entries =>
    inventoryLoop (sortZ ((List.range entries.length).map fun (i : Nat) => (i : Int))) (entries.zipIdx.map fun p => ((p.2 : Int), p.1))
  | .dict items => inventoryLoop (sortZ items.keys) items
  | .other => .error .argType

/-- binv/metributes/set_part.py:4-14.  The labels of a `SetPart` can be of any type; there are none here. -/
def setPartOfBinv (b : BV.Binv) : Except Err (SetPart L) :=
  let trueBlock : List Int := b.exposet.map fun (i : Nat) => (i : Int)
  let all : List Int := (List.range b.length).map fun (i : Nat) => (i : Int)
  let falseBlock := all.filter fun i => ! trueBlock.contains i
  newPart [trueBlock, falseBlock]

end Verif.SP
