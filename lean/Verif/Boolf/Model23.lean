import Verif.Boolf.Model6
import Verif.Walsh.Model

/-!
# Model of `Boolf` (boolf/), part 23: changed truth tables without the class, signed atoms
-/

namespace Verif.W
open Verif.Py

/-- perm/__init__.py:174-177 for a `WalshPerm` -/
noncomputable def Walsh.applyOnVector {α : Type} (w : Walsh) (vector : List α) : Except Err (List α) := do
  let inv ← w.inverse
  (List.range vector.length).mapM fun i => do
    match vector[← inv.get i]? with
    | some x => .ok x
    | none => .error .indexError

end Verif.W

namespace Verif.BF
open Verif.Py Verif.BV Verif.W
open Verif.A hiding Mat

/-- boolf/a/_mod_tt/mod_tt_perm/__init__.py:5-13, for a list of natural numbers -/
noncomputable def modTTPerm (tt : Binv) (perm : List Nat) : Except Err Binv := do
  let wpVector := perm.map fun i => ((2 ^ i : Nat) : Int)
  let wp ← (← W.new { vector := some wpVector }).inverse
  let modTT ← wp.applyOnVector tt.vector
  return ⟨modTT⟩

/-- `a ^ b` in python, for a natural and any integer (two's complement) -/
def pyXor (a : Nat) (b : Int) : Int := if 0 ≤ b then ((a ^^^ b.toNat : Nat) : Int) else -((a ^^^ (-b - 1).toNat : Nat) : Int) - 1

/-- `tt[i]` in python; negative places count from the end. -/
def ttItem (tt : Binv) (i : Int) : Except Err Bool :=
  let i := if i < 0 then i + tt.length else i
  if i < 0 then .error .indexError else tt.getItem i.toNat

inductive Signet
  | int (i : Int)
  | list (l : List Bool)
  | binv (b : Binv)

/-- boolf/a/_mod_tt/mod_tt_neg/__init__.py:6-12; the class `Binv` has no attribute `index`. -/
def Signet.index : Signet → Except Err Int
  | .int i => .ok i
  | .list _ => .error .attributeError
  | .binv _ => .error .attributeError

/-- boolf/a/_mod_tt/mod_tt_neg/__init__.py:4-16 -/
def modTTNeg (tt : Binv) (signet : Signet) : Except Err Binv := do
  let signetIndex ← signet.index
  let perm := (List.range tt.length).map fun i => pyXor i signetIndex
  return ⟨← perm.mapM (ttItem tt)⟩

/-- boolf/a/spread_sigperm_to_sigvar/__init__.py:6-13 -/
def spreadSigpermToSigvar (sigperm spread : List Int) : Except Err (List Int) := do
  if sigperm.length ≠ spread.length then throw .argValue
  let perm := sigperm.map logicAbs
  (List.range sigperm.length).mapM fun i => do logicAbsIncrease (← item sigperm i) (← item spread (← item perm i).toNat)

end Verif.BF
