import Verif.Perm.Model
import Verif.Walsh.Model

/-!
# Model of slices of permutations and vectors
-/

namespace Verif.P
open Verif.Py

/-- python's `slice` with integers (or `None`) -/
structure Slice where
  start : Option Int := none
  stop : Option Int := none
  step : Option Int := none
deriving DecidableEq, Repr

/-- `range(start, stop, step)` of python.  The number of entries is the rounded up quotient of the distance and the step (at least 0). -/
def pyRange (start stop step : Int) : Except Err (List Int) :=
  if step = 0 then .error .valueError
  else
    let count := if step > 0 then (stop - start + step - 1) / step else (start - stop - step - 1) / (-step)
    .ok ((List.range count.toNat).map fun (k : Nat) => start + k * step)

/-- a/slice_to_range/__init__.py:6-14 -/
def sliceToRange (s : Slice) (stop : Option Int := none) : Except Err (List Int) :=
  let start := match s.start with | some a => a | none => 0
  let stop := match s.stop with | some b => some b | none => stop
  let step := match s.step with | some c => c | none => 1
  match stop with
  | none => .error .stopMissing
  | some stop => pyRange start stop step

/-- perm/__init__.py:79-95 (`__getitem__`) for an integer: the result is `None` if it is negative -/
def Perm.getInt (p : Perm) (i : Int) : Option Nat := if 0 ≤ i then some (p.get i.toNat) else none

/-- perm/__init__.py:94-95 -/
def Perm.getSlice (p : Perm) (s : Slice) : Except Err (List (Option Nat)) := do return (← sliceToRange s (some p.length)).map p.getInt

end Verif.P

namespace Verif.W
open Verif.Py Verif.P

/-- walsh_perm/a/vector_class/__init__.py:30-37 (`__getitem__`) for an integer: the result is `None` if it is negative -/
def Vec.getInt (v : Vec) (i : Int) : Option Nat := if 0 ≤ i then some (Vec.get v i.toNat) else none

/-- walsh_perm/a/vector_class/__init__.py:36-37 -/
def Vec.getSlice (v : Vec) (s : Slice) : Except Err (List (Option Nat)) := do return (← sliceToRange s (some (Vec.length v : Int))).map (Vec.getInt v)

/-- perm/__init__.py:94-95 for a `WalshPerm`.  The attribute `length` is set only for the neutral element (perm/__init__.py:69-74 is called by
walsh_perm/__init__.py:51-55, while walsh_perm/__init__.py:37-46 does not set it). -/
def Walsh.getSlice (w : Walsh) (s : Slice) : Except Err (List (Option Nat)) :=
  if w.neutral then neutralPerm.getSlice s else .error .attributeError

end Verif.W
