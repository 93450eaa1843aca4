import Verif.Boolf.Props33

/-!
# Exceptions for constants (C91, C92)
-/

namespace Verif.BF
open Verif.Py Verif.BV Verif.P Verif.W Verif.SP Verif.SPC
open Verif.A hiding Mat

/-- **C91, C92.** For a function without atoms all attributes about fissions raise an `AssertionError`. -/
theorem C92_single_constant (f : Boolf) (h0 : f.adicity = 0) :
    f.fissions = .error .assertion ∧ f.fissionsLayered = .error .assertion ∧ f.fissionsWeightLayered = .error .assertion ∧
    f.fissionsWeight = .error .assertion ∧ f.fissionWalshSpectra = .error .assertion ∧ f.fissionWalshSpectraAbs = .error .assertion ∧
    f.fissionWalshSpectraLayered = .error .assertion ∧ f.fissionWalshSpectraLayeredAbs = .error .assertion ∧
    f.fissionWalshSpectraZipped = .error .assertion ∧ f.fissionWalshSpectraAbsZipped = .error .assertion := by
  have e : f.fissions = .error .assertion := by unfold Boolf.fissions; rw [if_neg (by omega)]
  have z : f.fissionWalshSpectraZipped = .error .assertion := by
    unfold Boolf.fissionWalshSpectraZipped makeAtompatterns
    rw [if_neg (by omega)]
    rfl
  refine ⟨e, ?_, ?_, ?_, ?_, ?_, ?_, ?_, z, ?_⟩
  all_goals simp only [Boolf.fissionsLayered, Boolf.fissionsWeightLayered, Boolf.fissionsWeight, Boolf.fissionWalshSpectra, Boolf.fissionWalshSpectraAbs,
    Boolf.fissionWalshSpectraLayered, Boolf.fissionWalshSpectraLayeredAbs, Boolf.fissionWalshSpectraAbsZipped, z, e, bind, Except.bind]

example : (setConstant true).adicity = 0 := by decide

end Verif.BF
