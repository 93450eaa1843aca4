import Verif.Walsh.Model
import Mathlib.Analysis.SpecialFunctions.Log.Base

/-!
# The inverse of a `WalshPerm`, with floating point numbers

`Walsh.inverse` (Model.lean) uses the exact inverse matrix.  Here the result of `np.linalg.inv` is a parameter.
-/

namespace Verif.W
open Verif.Py Verif.BV Verif.P
open Verif.A hiding Mat
open Verif.SG (Mat)

/-- a/is_integer_matrix/__init__.py:1-6 for a square matrix of floating point numbers (`nan` does not occur in this model) -/
def isIntegerMatrix {n : Nat} (matrix : Fin n → Fin n → ℝ) : Prop := ∀ i j, ¬ Int.fract (matrix i j) > 0

open Classical in
/-- walsh_perm/metributes/inverse/__init__.py:8-28; `inv` is what `np.linalg.inv(self.matrix_minimal)` returns or raises.  The entries of the matrix modulo 2 are integral,
and walsh_perm/a/shrink_matrix/__init__.py:11 converts them to `int`. -/
noncomputable def Walsh.inverseWith (w : Walsh) (inv : Except Err (Fin w.degree → Fin w.degree → ℝ)) : Except Err Walsh := do
  let invMatReal ← inv
  if isIntegerMatrix invMatReal then
    newMatrix ⟨w.degree, w.degree, fun i j => if h : i < w.degree ∧ j < w.degree then ⌊invMatReal ⟨i, h.1⟩ ⟨j, h.2⟩⌋ % 2 else 0⟩ true
  else do
    let perm ← mkPerm (.cycles (← w.cycles)) w.perilen
    newPerm (.perm (← perm.inverse)) true

end Verif.W
