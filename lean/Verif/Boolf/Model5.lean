import Verif.Boolf.Model4

/-!
# Model of `Boolf` (boolf/), part 5: layers, coordinates, linearity, fractions, distances

`Fraction(num, den)` is the rational number.
-/

namespace Verif.BF
open Verif.Py Verif.BV Verif.P Verif.W
open Verif.A hiding Mat

/-! ## Layers -/

/-- boolf/a/flat_to_layered/__init__.py:17-19 for the remaining pairs (`val`, `key`) -/
def layerLoop {α : Type} : List (α × Nat) → List (List α) → Except Err (List (List α))
  | [], result => .ok result
  | (val, key) :: rest, result =>
    match result[intToWeight key]? with
    | some l => layerLoop rest (result.set (intToWeight key) (l ++ [val]))
    | none => .error .indexError

/-- boolf/a/flat_to_layered/__init__.py:5-21, without `false_and_true_places`; the entries are of any type -/
def flatToLayered {α : Type} (vector : List α) : Except Err (List (List α)) := do
  let arity ← logInt vector.length
  layerLoop vector.zipIdx (List.replicate (arity + 1) [])

/-- boolf/a/flat_to_layered/__init__.py:28-30 for the remaining pairs (`val`, `key`) -/
def placesLoop : List (Bool × Nat) → Dict Nat (List Nat × List Nat) → Except Err (Dict Nat (List Nat × List Nat))
  | [], result => .ok result
  | (val, key) :: rest, result =>
    match result.get? (intToWeight key) with
    | some l => placesLoop rest (result.set (intToWeight key) (if val then (l.1, l.2 ++ [key]) else (l.1 ++ [key], l.2)))
    | none => .error .keyError

/-- boolf/a/flat_to_layered/__init__.py:5-10 and 23-32, with `false_and_true_places`, for a list of truth values -/
def flatToPlaces (vector : List Bool) : Except Err (Dict Nat (List Nat × List Nat)) := do
  let arity ← logInt vector.length
  placesLoop vector.zipIdx (Dict.ofPairs ((List.range (arity + 1)).map fun k => (k, ([], []))))

/-- boolf/metributes/_layered/__init__.py:16-22 and 47-48 -/
def Boolf.layeredTT (f : Boolf) : Except Err (List (List Nat)) := flatToLayered (f.root.vector.map Bool.toNat)

/-- boolf/metributes/_layered/__init__.py:36-42 and 45-49 -/
def Boolf.layeredWeight (f : Boolf) : Except Err (List Nat) := do return (← f.layeredTT).map List.sum

/-- boolf/metributes/is_symmetric/__init__.py:7-13 for the remaining layers -/
def symmetricLoop : List (List Nat) → Bool
  | [] => true
  | layer :: rest => if layer.dedup.length > 1 then false else symmetricLoop rest

/-- boolf/metributes/is_symmetric/__init__.py:4-13 -/
def Boolf.isSymmetric (f : Boolf) : Except Err Bool := do return symmetricLoop (← f.layeredTT)

/-! ## Coordinates -/

/-- boolf/methods/hasse_matrix_coordinates/__init__.py:4-14 -/
def Boolf.hasseMatrixCoordinates (f : Boolf) (arg : TTArg := .noArg) : Except Err (Nat × Nat) := do
  let tt ← f.tt arg
  let length := tt.length
  let halfLength := length / 2
  let i := (← ofBools (tt.vector.take halfLength)).intval
  let j := (← ofBools ((tt.vector.take length).drop halfLength).reverse).intval
  return (i, j)

/-- boolf/a/hasse_matrix_coordinates_to_tt/__init__.py:4-12 for a natural arity -/
def hasseMatrixCoordinatesToTT (i j : Int) (arity : Nat) : Except Err Binv := do
  let length := 1 <<< arity
  let halfLength : Nat := length / 2
  let left ← BV.mk { intval := some i, length := some (halfLength : Int) }
  let right ← BV.mk { intval := some j, length := some (halfLength : Int) }
  ofBools (left.vector ++ right.vector.reverse)

/-- boolf/methods/_foibles/__init__.py:26-36 for an integer.  For arity 0 the shift length is not an integer, for arity 1 it is negative. -/
def Boolf.isSolid (f : Boolf) (arity : Int) : Except Err Nat := do
  let (i, j) ← f.hasseMatrixCoordinates (.arity arity)
  if arity ≤ 0 then .error .typeError
  else if arity = 1 then .error .valueError
  else
    let coordinateLength := 2 ^ (arity.toNat - 1)
    let shiftLength := coordinateLength - 2
    return intToWeight ((i >>> shiftLength) ^^^ (j >>> shiftLength)) % 2

/-- boolf/a/symmetric_to_index/__init__.py:7-24 for a natural arity -/
def symmetricToIndex (symmetricInt : Int) (arity : Nat) : Except Err Nat :=
  if arity = 0 then (if symmetricInt = 0 ∨ symmetricInt = 1 then .ok symmetricInt.toNat else .error .argTooBig)
  else
    let length := 1 <<< arity
    let tooBig := 1 <<< length
    let halfLength := length / 2
    if symmetricInt < (tooBig : Nat) then do
      let v ← BV.mk { intval := some symmetricInt, length := some (length : Int) }
      let left := v.vector.take halfLength
      let right := v.vector.drop halfLength
      if left = right.reverse then return (← ofBools right).intval else .error .argValue
    else .error .argTooBig

/-! ## Linearity, fractions, distances -/

/-- boolf/metributes/is_linear/__init__.py:7-14 -/
def Boolf.isLinear (f : Boolf) : Except Err Bool :=
  match linearToWalshAndOddness f.root with
  | .ok _ => .ok true
  | .error .notWalshRow => .ok false
  | .error e => .error e

/-- python `Fraction(num, den)` for natural numbers -/
def pyFraction (num den : Nat) : Except Err Rat := if den = 0 then .error .zeroDivision else .ok (mkRat num den)

/-- boolf/metributes/weight_fract/__init__.py:6-11 -/
def Boolf.weightFract (f : Boolf) : Except Err Rat := pyFraction f.root.weight f.root.length

/-- boolf/methods/value_fract/__init__.py:4-8; `int(tt, 2)` is the value of the string with the last digit as the lowest one. -/
def Boolf.valueFract (f : Boolf) : Except Err Rat := do
  let tt ← f.tt
  let num := valB tt.vector.reverse
  let den := (1 <<< (1 <<< f.adicity)) - 1
  pyFraction num den

/-- boolf/methods/walsh_distances/__init__.py:4-20 -/
def Boolf.walshDistances (f : Boolf) (arg : TTArg := .noArg) : Except Err (List Nat) := do
  let tt ← f.tt arg
  let length := tt.length
  let degree ← logFloor (length : Int)
  let walshMatrix ← arityToWalshMatrix degree
  (List.range length).mapM fun i => do
    match walshMatrix[i]? with
    | some row => return (← tt.bitwise Bool.xor ⟨row.map (· ≠ 0)⟩).weight
    | none => .error .indexError

end Verif.BF
