import Verif.Boolf.Model11

/-!
# Model of `Boolf` (boolf/), part 18: the prototype of `clan_minrep`

The numpy matrices of truth values (`matrix_of_candidates`, `matrix_of_applicants`) are represented by the lists of their columns.
-/

namespace Verif.BF
open Verif.Py Verif.BV Verif.P Verif.W Verif.SP
open Verif.A hiding Mat

/-- boolf/metributes/_ec_reps/minimal/clan_minrep/variant_0_prototype.py:46-48 -/
def blueRow (galore : Nat) (places : List Nat) : Except Err (List Bool) :=
  places.foldlM (fun row place => if place < row.length then .ok (row.set place true) else .error .indexError) (List.replicate galore false)

/-- boolf/metributes/_ec_reps/minimal/clan_minrep/variant_0_prototype.py:44-49 for the remaining keys -/
def protoRowsLoop (arity galore : Nat) (layers : Dict Nat (List Nat × List Nat)) (ratios : Dict Nat Rat) : List Nat → Dict Nat (List Bool) → Except Err (Dict Nat (List Bool))
  | [], rows => .ok rows
  | key :: rest, rows =>
    if key ∈ rows.keys then protoRowsLoop arity galore layers ratios rest rows
    else do
      let row ← blueRow galore (← clanSchouteWrapper key arity layers ratios)
      protoRowsLoop arity galore layers ratios rest (rows.set key row)

/-- `dict_of_blue_rows[_][col_index]`, boolf/metributes/_ec_reps/minimal/clan_minrep/variant_0_prototype.py:58 -/
def blueEntry (rows : Dict Nat (List Bool)) (colIndex key : Nat) : Except Err Bool := do
  match (← dictGet rows key)[colIndex]? with
  | some e => return e
  | none => throw .indexError

/-- boolf/metributes/_ec_reps/minimal/clan_minrep/variant_0_prototype.py:57-64 for the remaining values of `col_index`, with the dictionaries
`small_to_col_indices` and `small_to_big` -/
def protoSmallLoop (leftIndex arity : Nat) (blueKeys : List Nat) (rows : Dict Nat (List Bool)) :
    List Nat → Dict (List Bool) (List Nat) → Dict (List Bool) (List Bool) → Except Err (Dict (List Bool) (List Nat) × Dict (List Bool) (List Bool))
  | [], cols, bigs => .ok (cols, bigs)
  | colIndex :: rest, cols, bigs => do
    let rawSmall ← blueKeys.mapM (blueEntry rows colIndex)
    let small ← match rawSmall with
      | [] => throw .indexError
      | first :: others => pure ((!first) :: others)
    let cols := cols.set small (((cols.get? small).getD []) ++ [colIndex])
    let bigs ← match bigs.get? small with
      | some _ => pure bigs
      | none => do pure (bigs.set small (← sierpinskiTwin small leftIndex arity))
    protoSmallLoop leftIndex arity blueKeys rows rest cols bigs

/-- `matrix_of_applicants[:, col_index] = big` (line 70) for the values of `col_index` in a list; for a vector of a wrong length numpy raises
`ValueError`.  (It would accept a vector with one entry.)  boolf/metributes/_ec_reps/minimal/clan_minrep/variant_0_prototype.py:69-70 -/
def setColumns (plenty : Nat) (big : List Bool) : List Nat → List (List Bool) → Except Err (List (List Bool))
  | [], matrix => .ok matrix
  | colIndex :: rest, matrix =>
    if colIndex < matrix.length then
      if big.length = plenty then setColumns plenty big rest (matrix.set colIndex big) else .error .valueError
    else .error .indexError

/-- boolf/metributes/_ec_reps/minimal/clan_minrep/variant_0_prototype.py:67-70 for the remaining items of `small_to_col_indices` -/
def protoApplicants (plenty : Nat) (bigs : Dict (List Bool) (List Bool)) : List (List Bool × List Nat) → List (List Bool) → Except Err (List (List Bool))
  | [], matrix => .ok matrix
  | (small, colIndices) :: rest, matrix => do
    let big ← dictGet bigs small
    protoApplicants plenty bigs rest (← setColumns plenty big colIndices matrix)

/-- the places of true entries, `zip(*np.nonzero(matrix))`, in the order of numpy (row by row) -/
def nonzero (plenty galore : Nat) (matrix : List (List Bool)) : List (Nat × Nat) :=
  (List.range plenty).flatMap fun m => ((List.range galore).filter fun n => (matrix.getD n []).getD m false).map fun n => (m, n)

/-- boolf/metributes/_ec_reps/minimal/clan_minrep/variant_0_prototype.py:38-90 for the remaining values of `right_index`, with the variables
`matrix_of_candidates` and `dict_of_blue_rows`; `none` is the python value `None` -/
noncomputable def Boolf.protoLoop (order : List Nat → List Nat) (f : Boolf) (arity plenty galore : Nat) (layers : Dict Nat (List Nat × List Nat)) (ratios : Dict Nat Rat) :
    List Nat → List (List Bool) → Dict Nat (List Bool) → Except Err (Option Boolf)
  | [], _, _ => .ok none
  | rightIndex :: rest, candidates, rows => do
    let leftIndex := plenty - rightIndex - 1
    let blueKeys := (← intToSierpinskiRow order rightIndex).map (· ^^^ leftIndex)
    let rows ← protoRowsLoop arity galore layers ratios blueKeys rows
    let (cols, bigs) ← protoSmallLoop leftIndex arity blueKeys rows (List.range galore) [] []
    let applicants ← protoApplicants plenty bigs cols (List.replicate galore (List.replicate plenty false))
    let intersection := List.zipWith (List.zipWith Bool.and) candidates applicants
    if nonzero plenty galore intersection = [] then f.protoLoop order arity plenty galore layers ratios rest candidates rows
    else
      match ← repLoop (fun c => f.pairMember c.1 c.2) (nonzero plenty galore intersection) [] with
      | some rep => return some rep
      | none => f.protoLoop order arity plenty galore layers ratios rest intersection rows

/-- boolf/metributes/_ec_reps/minimal/clan_minrep/variant_0_prototype.py:11-90 -/
noncomputable def Boolf.clanMinrepPrototype (order : List Nat → List Nat) (f : Boolf) : Except Err (Option Boolf) :=
  if f.isConstant then .ok (some f)
  else do
    let arity := f.adicity
    let plenty := 1 <<< arity
    let galore := Nat.factorial arity
    let layers ← flatToPlaces (← (← f.twin).tt (.arity arity)).vector
    let ratios ← layerRatios layers
    f.protoLoop order arity plenty galore layers ratios (List.range' 1 (plenty - 1)) (List.replicate galore (List.replicate plenty true)) []

end Verif.BF
