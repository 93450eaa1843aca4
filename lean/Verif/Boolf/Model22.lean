import Verif.Boolf.Model2

/-!
# Model of `Boolf` (boolf/), part 22: ring count vectors
-/

namespace Verif.BF
open Verif.Py Verif.BV

/-- boolf/a/int_to_rcv/__init__.py:13-15 -/
def rcvNew (old : List Int) : Except Err (List Int) := do
  let exposets ← old.mapM fun e => do
    let b ← BV.mk { intval := some e }
    return b.exposet.map fun (i : Nat) => (i : Int)
  return exposets.flatten

/-- boolf/a/int_to_rcv/__init__.py:12-19; the fuel is the number of passes. -/
def rcvLoop : Nat → List Int → List Nat → Except Err (List Nat)
  | 0, _, _ => .error .diverges
  | fuel + 1, old, rcv => do
    let new ← rcvNew old
    if old.length = 0 then return rcv ++ [old.length] else rcvLoop fuel new (rcv ++ [old.length])

/-- boolf/a/int_to_rcv/__init__.py:8-29.  `SpecifiedLengthTooShortError` is a `ValueError` (boolf/a/int_to_rcv/ex.py:1). -/
def intToRcv (n : Int) (length : Option Int := none) : Except Err (List Nat) := do
  let rcv ← rcvLoop (n.toNat + 2) [n] []
  let result := rcv.tail.dropLast
  match length with
  | none => return result
  | some length => if result.length ≤ length then return result ++ List.replicate (length - result.length).toNat 0 else throw .valueError

end Verif.BF
