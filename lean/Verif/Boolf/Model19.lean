import Verif.Boolf.Model3
import Verif.Boolf.Model11

/-!
# Model of `Boolf` (boolf/), part 19: kings
-/

namespace Verif.BF
open Verif.Py Verif.BV Verif.P Verif.W Verif.SP
open Verif.A hiding Mat

/-- boolf/a/_noble/__init__.py:88-96 -/
noncomputable def nobleToKingAndQuadrant (noble arity : Nat) : Except Err (Nat × Nat) := do
  let (royal, quadrant) ← nobleToRoyalAndQuadrant noble arity
  let royalBoolf ← newTT (.int royal) none (some (arity : Int))
  match ← royalBoolf.factionMinrep with
  | none => throw .attributeError
  | some kingBoolf => return ((← kingBoolf.tt (.arity arity)).intval, quadrant)

/-- boolf/a/_noble/__init__.py:99-102 -/
noncomputable def nobleToKingIndexAndQuadrant (noble arity : Nat) : Except Err (Nat × Nat) := do
  let (king, quadrant) ← nobleToKingAndQuadrant noble arity
  let kingIndex ← nobleToIndex king arity
  return (kingIndex, quadrant)

/-- boolf/methods/_patron/__init__.py:29-31 -/
noncomputable def Boolf.patronKingIndexAndQuadrant (f : Boolf) (arity : Nat) : Except Err (Nat × Nat) := do
  nobleToKingIndexAndQuadrant (← f.patronInt arity) arity

end Verif.BF
