import Verif.Boolf.Model27
import Verif.Boolf.Model11

/-!
# Model of `Boolf` (boolf/), part 28: Walsh matrices and Sierpinski rows with all arguments
-/

namespace Verif.BF
open Verif.Py Verif.BV Verif.P Verif.W Verif.SP
open Verif.A hiding Mat

/-- a/arity_to_walsh_matrix/__init__.py:5-21: the rows.  `is_natural` is the comparison with 0. -/
def arityToWalshMatrixArgs (arity : Int) (negate : Bool := false) : Except Err (List (List Nat)) :=
  if arity < 0 then .error .assertion
  else if arity = 0 then
    if negate then .ok [[1]] else .ok [[0]]
  else do
    let size := 1 <<< arity.toNat
    let prefab ← makeAtompatterns arity.toNat
    (List.range size).mapM fun i : Nat => do
      let binv ← makeLinearBinv { walsh := some (i : Int), arity := some arity, parity := some (negate.toNat : Int), prefab := some prefab }
      return binv.vector.map Bool.toNat

/-- a/int_to_sierpinski_row/__init__.py:7-33.  Line 24 iterates over a python `set` if `intval` is given: `order` is the function that gives, for
the ascending list of the elements of a set, the list in which python iterates over them.  A negative entry of `exposet` raises `ValueError` in line 24
(negative shift count). -/
def intToSierpinskiRowArgs (order : List Nat → List Nat) (intval : Option Int) (exposet : Option (List Int)) : Except Err (List Nat) :=
  match intval, exposet with
  | some i, none =>
    if i < 0 then .error .notNatural
    else intToSierpinskiRow order i.toNat
  | none, some e =>
    if e = [] then .ok [0]
    else if e.any (· < 0) then .error .valueError
    else sierpinskiRow (e.map Int.toNat)
  | _, _ => .error .argCombo

/-- boolf/a/intval_to_arity/__init__.py:16-20 -/
def intvalToTtLength (x : Int) : Except Err Nat := do
  let exponent ← intvalToArity x
  return 1 <<< exponent

end Verif.BF
