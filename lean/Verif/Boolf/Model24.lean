import Verif.Boolf.Model6

/-!
# Model of `Boolf` (boolf/), part 24: signed adjacency matrices, variants of the Walsh spectrum
-/

namespace Verif.BF
open Verif.Py Verif.BV
open Verif.A hiding Mat

/-- `vertices.index(a)` -/
def placeOf (vertices : List Nat) (a : Nat) : Except Err Nat := if a ∈ vertices then .ok (vertices.idxOf a) else .error .valueError

/-- `matrix[i, j] = entry` -/
def setPair (matrix : List (List Int)) (i j : Nat) (entry : Int) : List (List Int) := matrix.modify i fun row => row.set j entry

/-- boolf/methods/diagonal_adjacency_matrix/__init__.py:18-22.  The two numbers are different, so the weight is positive. -/
def diagonalStep (vertices : List Nat) (minusPlaces : List Bool) (a b : Nat) (matrix : List (List Int)) : Except Err (List (List Int)) := do
  let i := (← BV.mk { intval := some ((a ^^^ b : Nat) : Int) }).weight - 1
  let aIndex ← placeOf vertices a
  let bIndex ← placeOf vertices b
  let entry : Int := if (← item minusPlaces i) then -1 else 1
  return setPair (setPair matrix aIndex bIndex entry) bIndex aIndex entry

/-- boolf/methods/diagonal_adjacency_matrix/__init__.py:16-22 for the remaining pairs -/
def diagonalLoop (tt : Binv) (vertices : List Nat) (minusPlaces : List Bool) : List (Nat × Nat) → List (List Int) → Except Err (List (List Int))
  | [], matrix => .ok matrix
  | (a, b) :: rest, matrix => do
    let inA ← tt.getItem a
    let inB ← tt.getItem b
    if inA && inB then diagonalLoop tt vertices minusPlaces rest (← diagonalStep vertices minusPlaces a b matrix)
    else diagonalLoop tt vertices minusPlaces rest matrix

/-- boolf/methods/diagonal_adjacency_matrix/__init__.py:8-24, for a list of truth values -/
def Boolf.diagonalAdjacencyMatrix (f : Boolf) (minusPlaces : List Bool) : Except Err (List (List Int)) :=
  let vertices := sorted f.fullspots
  let size := vertices.length
  diagonalLoop f.root vertices minusPlaces (pairsBelow (2 ^ f.valency)) (List.replicate size (List.replicate size 0))

/-- boolf/methods/walsh_spectrum/__init__.py:11-13 -/
def Boolf.walshSpectrumAbs (f : Boolf) (arg : TTArg := .noArg) : Except Err (List Int) := do return (← f.walshSpectrum arg).map fun x => |x|

/-- boolf/methods/walsh_spectrum/__init__.py:19-21 -/
def Boolf.walshSpectrumLayered (f : Boolf) (arg : TTArg := .noArg) : Except Err (List (List Int)) := do flatToLayered (← f.walshSpectrum arg)

/-- boolf/methods/walsh_spectrum/__init__.py:24-26 -/
def Boolf.walshSpectrumAbsLayered (f : Boolf) (arg : TTArg := .noArg) : Except Err (List (List Int)) := do flatToLayered (← f.walshSpectrumAbs arg)

end Verif.BF
