import Verif.Boolf.Model17

/-!
# Model of `Boolf` (boolf/), part 32: cores of hypersplits in a collection of segments
-/

namespace Verif.BF
open Verif.Py Verif.BV Verif.P Verif.W Verif.SP
open Verif.A hiding Mat

/-- boolf/methods/find_segments/a/functions/loop_hypersplits/__init__.py:21-32 for the remaining potential cores -/
def coresLoop (fuel : Nat) : List Core → Collection → Except Err Collection
  | [], c => .ok c
  | core :: rest, c =>
    if core.vectors.any c.inquire then coresLoop fuel rest c
    else if core.free = [] then do
      let uniqueCoreVector ← item core.vectors 0
      coresLoop fuel rest (← c.demand (Collection.add fuel) uniqueCoreVector)
    else coresLoop fuel rest c

/-- boolf/methods/find_segments/a/functions/loop_hypersplits/__init__.py:1-32; the changed collection is returned.  `f` is `collection.boolf`, `fuel` bounds the depth of recursion -/
noncomputable def loopHypersplits (fuel : Nat) (f : Boolf) (c : Collection) : Except Err Collection := do
  let boolf ← newFullspots (c.getSpots.map Int.ofNat) (some (f.atomvals.map Int.ofNat)) none true
  coresLoop fuel ((← boolf.hypersplitsPotentialCores).values.flatMap id) c

end Verif.BF
