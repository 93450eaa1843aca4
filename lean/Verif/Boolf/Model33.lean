import Verif.Boolf.Model2

/-!
# Model of `Boolf` (boolf/), part 33: `val` with arguments of any kind

`Boolf.val` and `Boolf.valBinvs` (part 2) are the cases in which all arguments are integers or all are Binvs.
-/

namespace Verif.BF
open Verif.Py Verif.BV Verif.P Verif.W
open Verif.A hiding Mat

/-- An argument of `val`: an integer or Boolean, a list, a Binv, or an object of another type that is hashable and without places (like `None`). -/
inductive VArg
  | num (n : Int)
  | seq (l : List VArg)
  | bv (b : Binv)
  | other

/-- What `val` returns: a Boolean (an entry of the root) or a Binv. -/
inductive VRes
  | bit (b : Bool)
  | binv (b : Binv)
deriving DecidableEq

/-- `arg_list[i]` for a natural number `i`; boolf/methods/vals_apply/val.py:25 with binv/__init__.py:109-110.  An entry of a Binv is a Boolean. -/
def VArg.item : VArg → Nat → Except Err VArg
  | .seq l, i => match l[i]? with
    | some a => .ok a
    | none => .error .indexError
  | .bv b, i => match b.vector[i]? with
    | some a => .ok (.num a.toNat)
    | none => .error .indexError
  | .num _, _ => .error .typeError
  | .other, _ => .error .typeError

/-- Is the argument a list? -/
def VArg.isSeq : VArg → Bool
  | .seq _ => true
  | _ => false

/-- Is the argument in `{0, 1}`?  boolf/methods/vals_apply/val.py:18 -/
def VArg.isBit : VArg → Bool
  | .num n => decide (n = 0 ∨ n = 1)
  | _ => false

/-- The number, for a number. -/
def VArg.int : VArg → Int
  | .num n => n
  | _ => 0

/-- `set(args).issubset({0, 1})`; boolf/methods/vals_apply/val.py:18.  A list is not hashable; a Binv has the hash of a string (binv/methods/str.py:16-17), which is
taken to be different from those of 0 and 1. -/
def issubset01 (args : List VArg) : Except Err Bool :=
  if args.any VArg.isSeq then .error .typeError
  else .ok (args.all VArg.isBit)

/-- boolf/methods/vals_apply/val.py:17-20 -/
def Boolf.valSingle (f : Boolf) (args : List VArg) : Except Err VRes := do
  if ← issubset01 args then
    let key := (← BV.mk { vector := some (.list (args.map VArg.int)) }).intval
    return .bit (← f.root.getItem key)
  else .error .unexpectedArgument

/-- `int(e)` for one entry of `vals_list`; binv/__init__.py:43 and 82 -/
def VRes.toBit : VRes → Except Err Bool
  | .bit b => .ok b
  | .binv _ => .error .typeError

/-- `Binv(vals_list)`; boolf/methods/vals_apply/val.py:27 with binv/__init__.py:41-44: `int` of a Binv raises a `TypeError`, which is not caught. -/
def binvOfVals (l : List VRes) : Except Err VRes := do
  let bits ← l.mapM VRes.toBit
  return .binv (← ofBools bits)

mutual
/-- boolf/methods/vals_apply/val.py:8-27; `first` and `rest` are the arguments. -/
def Boolf.valArgs (f : Boolf) : VArg → List VArg → Except Err VRes
  | .num n, rest =>
    if rest.length + 1 = f.valency then
      if n = 0 ∨ n = 1 then f.valSingle (.num n :: rest) else .error .unexpectedArgument
    else .error .sarityMismatch
  | .seq l, rest =>
    if rest.length + 1 = f.valency then do binvOfVals (← f.valColumns l 0 rest)
    else .error .sarityMismatch
  | .bv b, rest =>
    if rest.length + 1 = f.valency then do
      binvOfVals (← b.vector.zipIdx.mapM fun xi => do
        let argsI ← rest.mapM (·.item xi.2)
        f.valSingle (.num xi.1.toNat :: argsI))
    else .error .sarityMismatch
  | .other, rest => if rest.length + 1 = f.valency then .error .unexpectedArgument else .error .sarityMismatch

/-- boolf/methods/vals_apply/val.py:23-26: the loop over the places of the first argument, from place `i` on. -/
def Boolf.valColumns (f : Boolf) : List VArg → Nat → List VArg → Except Err (List VRes)
  | [], _, _ => .ok []
  | a :: l, i, rest => do
    let argsI ← rest.mapM (·.item i)
    let v ← f.valArgs a argsI
    return v :: (← f.valColumns l (i + 1) rest)
end

/-- boolf/methods/vals_apply/val.py:8-27 for any list of arguments -/
def Boolf.valAny (f : Boolf) : List VArg → Except Err VRes
  | [] => if f.valency = 0 then .error .indexError else .error .sarityMismatch
  | first :: rest => f.valArgs first rest

end Verif.BF
