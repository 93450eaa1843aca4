import Verif.Boolf.Model2
import Verif.SigPerm.Schoute

/-!
# Model of `Boolf` (boolf/), part 20: colored vertices of the hypercube
-/

namespace Verif.BF
open Verif.Py Verif.BV Verif.P Verif.W
open Verif.A hiding Mat

/-- boolf/a/apply_sigperm_to_colors/__init__.py:15; a negative index counts from the end. -/
def storeColor {κ : Type} (color : κ) (vector : List (Option κ)) (fullspot : Int) : Except Err (List (Option κ)) :=
  let i := if fullspot < 0 then fullspot + vector.length else fullspot
  if 0 ≤ i ∧ i < vector.length then .ok (vector.set i.toNat (some color)) else .error .indexError

/-- boolf/a/apply_sigperm_to_colors/__init__.py:14-15 -/
def storeColors {κ : Type} (vector : List (Option κ)) (entry : κ × List Int) : Except Err (List (Option κ)) :=
  entry.2.foldlM (storeColor entry.1) vector

/-- boolf/a/apply_sigperm_to_colors/__init__.py:11-15; the colors are not `None`. -/
def colorVector {κ : Type} (colorToFullspots : Dict κ (List Int)) (arity : Nat) : Except Err (List (Option κ)) :=
  colorToFullspots.foldlM storeColors (List.replicate (2 ^ arity) none)

/-- boolf/a/apply_sigperm_to_colors/__init__.py:20-22 -/
def groupColors {κ : Type} [DecidableEq κ] : List (Option κ × Nat) → Dict κ (List Nat) → Dict κ (List Nat)
  | [], resultDict => resultDict
  | (none, _) :: rest, resultDict => groupColors rest resultDict
  | (some val, key) :: rest, resultDict => groupColors rest (resultDict.set val ((resultDict.get? val).getD [] ++ [key]))

/-- boolf/a/apply_sigperm_to_colors/__init__.py:7-9 and the attribute read in line 17; the argument is a list (or tuple), a `SigPerm` or a `Perm`. -/
def schouteOf : SigArg → Except Err (Except Err Perm)
  | .sigperm s => .ok s.schoutePerm
  | .perm p => .ok (SG.permSchoutePerm p)
  | .list l => do
    let s ← SG.new { sequence := some l }
    return s.schoutePerm

/-- boolf/a/apply_sigperm_to_colors/__init__.py:5-24 -/
def applySigpermToColors {κ : Type} [DecidableEq κ] (colorToFullspots : Dict κ (List Int)) (arity : Nat) (sigperm : SigArg) : Except Err (Dict κ (List Nat)) := do
  let schoutePerm ← schouteOf sigperm
  let vector ← colorVector colorToFullspots arity
  let resultVector ← (← schoutePerm).applyOnVector vector
  return groupColors resultVector.zipIdx []

end Verif.BF
