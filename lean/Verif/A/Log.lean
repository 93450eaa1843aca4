import Verif.Py.Double
import Verif.Boolf.Model2

/-!
# Logarithms of integers, with floating point numbers

In the other models these functions are exact.  Here the operations of python's `float` are parameters, so that the error can be estimated.  (Integers that are too big
for a floating point number, from about `2 ** 1024` on, are not covered: python splits off their exponent.)
-/

namespace Verif.Fl
open Verif.Py Verif.BV

/-- The operations that python's `math.log` and `math.log2` use: conversion of an integer, the logarithms of the C library, and division. -/
structure Floats where
  ofNat : ℕ → ℝ
  ln : ℝ → ℝ
  lb : ℝ → ℝ
  div : ℝ → ℝ → ℝ

/-- python's `math.log(n, base)` for integers -/
noncomputable def Floats.log (F : Floats) (n base : ℕ) : ℝ := F.div (F.ln (F.ofNat n)) (F.ln (F.ofNat base))

/-- python's `math.log2(n)` for an integer -/
noncomputable def Floats.log2 (F : Floats) (n : ℕ) : ℝ := F.lb (F.ofNat n)

/-- a/is_natural/__init__.py:1-6 for a floating point number: `candidate % 1 == 0` and `candidate >= 0` -/
def isNatural (x : ℝ) : Prop := (∃ z : ℤ, x = z) ∧ 0 ≤ x

/-- binv/a/binary_length/__init__.py:6-13 for a natural number -/
noncomputable def Floats.binaryLength (F : Floats) (n : ℕ) : ℤ := if n = 0 then 0 else ⌊F.log n 2⌋ + 1

/-- a/decimal_length/__init__.py:6-13 for a natural number -/
noncomputable def Floats.decimalLength (F : Floats) (n : ℕ) : ℤ := if n = 0 then 0 else ⌊F.log n 10⌋ + 1

open Classical in
/-- a/is_power_of_two/__init__.py:6-14 for a natural number -/
noncomputable def Floats.isPowerOfTwo (F : Floats) (n : ℕ) : Bool :=
  if n = 0 then false else if ¬ isNatural (F.log n 2) then false else true

/-- a/_log/log_floor/__init__.py:6-10 -/
noncomputable def Floats.logFloor (F : Floats) (x : ℤ) : Except Err ℤ :=
  if x - 1 ≥ 0 then .ok ⌊F.log2 x.toNat⌋ else .error .argValue

/-- a/_log/log_ceil/__init__.py:6-10 -/
noncomputable def Floats.logCeil (F : Floats) (x : ℤ) : Except Err ℤ :=
  if x - 1 ≥ 0 then .ok ⌈F.log2 x.toNat⌉ else .error .argValue

open Classical in
/-- a/_log/log_int/__init__.py:6-17; `int` of an integral floating point number -/
noncomputable def Floats.logInt (F : Floats) (x : ℤ) : Except Err ℤ :=
  if x - 1 ≥ 0 then
    let result := F.log2 x.toNat
    if isNatural result then .ok ⌊result⌋ else .error .argValue
  else .error .argValue

/-- binv/__init__.py:46-59 and 82, like `Verif.BV.mkIntval` -/
noncomputable def Floats.mkIntval (F : Floats) (intval : ℤ) (length minimalLength : Option ℤ) : Except Err Binv :=
  if intval ≥ 0 then
    match length, minimalLength with
    | none, none =>
      if intval = 0 then .ok ⟨[]⟩ else .ok ⟨binLE intval.toNat⟩
    | some L, _ =>
      if L ≥ F.binaryLength intval.toNat then .ok ⟨zfillLE (binLE intval.toNat) L⟩ else .error .lengthError
    | none, some m => .ok ⟨zfillLE (binLE intval.toNat) (max m (F.binaryLength intval.toNat))⟩
  else .error .intvalError

/-- boolf/a/intval_to_arity/__init__.py:6-13, like `Verif.BF.intvalToArity` -/
noncomputable def Floats.intvalToArity (F : Floats) (x : ℤ) : Except Err ℤ :=
  if x ≥ 0 then
    if x = 0 ∨ x = 1 then .ok 0
    else do return (← F.logFloor (← F.logFloor x)) + 1
  else .error .argValue

end Verif.Fl
