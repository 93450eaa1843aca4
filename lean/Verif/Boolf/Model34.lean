import Verif.A.Log

/-!
# Truth tables given as integers, with floating point numbers

`Binv(intval=…, length=…)` compares the length with `binary_length`, which is computed with floating point numbers.  Here the constructors of Boolf that use it
are modelled with the operations of `Verif.Fl.Floats`.
-/

namespace Verif.Fl
open Verif.Py Verif.BV Verif.BF

/-- boolf/subinit_methods/tt/__init__.py:28-34, like `Verif.BF.ttBinv` -/
noncomputable def Floats.ttBinv (F : Floats) (tt : TT) (arity : Option ℤ) : Except Err Binv :=
  match arity, tt with
  | none, .list l => BV.mk { vector := some (.list l) }
  | none, .str s => BV.mk { vector := some (.str s) }
  | none, .binv b => BV.mk { vector := some (.binv b) }
  | none, _ => .error .argType
  | some n, .int i => if n < 0 then .error .valueError else F.mkIntval i (some ((1 <<< n.toNat : ℕ) : ℤ)) none
  | some _, _ => .error .assertion

/-- boolf/subinit_methods/tt/__init__.py:9-71, like `Verif.BF.newTT`; the `log_int` of the length (line 55) is exact, see `C163_models`. -/
noncomputable def Floats.newTT (F : Floats) (tt : TT) (atomvals : Option (List ℤ) := none) (arity : Option ℤ := none) (skip : Bool := false) :
    Except Err Boolf :=
  match tt with
  | .bool b => if atomvals.isSome || arity.isSome || skip then .error .argCombo else .ok (setConstant b)
  | tt => do
    let binv ← F.ttBinv tt arity
    if skip then ttSkip binv atomvals else ttDeflated binv atomvals

/-- boolf/subinit_methods/zhe/__init__.py:9-23, like `Verif.BF.newZhe` -/
noncomputable def Floats.newZhe (F : Floats) (zhe : ℤ) : Except Err Boolf := do
  let arity ← F.intvalToArity zhe
  F.newTT (.int (← twinInt zhe arity.toNat)) none (some arity)

end Verif.Fl
