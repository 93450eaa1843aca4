import Verif.Boolf.Model25
import Verif.Boolf.Model8

/-!
# Model of `Boolf` (boolf/), part 26: methods that show names of atoms
-/

namespace Verif.BF
open Verif.Py Verif.BV Verif.P Verif.W Verif.SP
open Verif.A hiding Mat

/-- `l[i]` for an integer, where negative numbers count from the end -/
def itemInt {α : Type} (l : List α) (i : Int) : Except Err α :=
  let j := if i < 0 then i + l.length else i
  if 0 ≤ j then item l j.toNat else .error .indexError

/-- a name in an operation that needs a string -/
def Name.string (name : Name) : Except Err (List Char) :=
  match ofLex name with
  | .inl _ => .error .typeError
  | .inr s => .ok s

/-- boolf/methods/_pretty/bundles_pretty/__init__.py:5-12 -/
noncomputable def Boolf.bundlesPretty (f : Boolf) (atomnames : Option (List Name) := none) : Except Err (List (List Name)) := do
  let names ← f.chooseNames atomnames
  (← f.bundles).mapM fun bundle : List Int => bundle.mapM fun atomkey => itemInt names atomkey

/-- boolf/methods/_pretty/fullspot_atoms_pretty/__init__.py:5-21 -/
def Boolf.fullspotAtomsPretty (f : Boolf) (atomnames : Option (List Name) := none) : Except Err (Dict Nat (List Name)) := do
  let names ← f.chooseNames atomnames
  return Dict.ofPairs (← (← f.fullspotAtoms).mapM fun p : Nat × List Nat => do
    return (p.1, ← p.2.mapM fun atomkey => item names atomkey))

/-- boolf/methods/_pretty/fullspotlinks_by_atom_pretty/__init__.py:5-28; the class has no attribute `fullspotlinks_by_atom` (compare boolf/__init__.py:69-145),
so line 16 raises `AttributeError` -/
def Boolf.fullspotlinksByAtomPretty (f : Boolf) (atomnames : Option (List Name) := none) : Except Err (Dict Name (List (Nat × Nat))) := do
  let _ ← f.chooseNames atomnames
  .error .attributeError

/-- boolf/methods/_pretty/hypersplits_pretty/__init__.py:26-31 -/
def labelPretty (newMolecule : List Name) (oldBlockLabel : List Char) : Except Err (List Char) := do
  let newBlockLabel ← oldBlockLabel.zipIdx.mapM fun p : Char × Nat => do
    let parenthesis := if p.1 = '1' then '+' else '−'
    let atomname ← item newMolecule p.2
    return parenthesis :: (← atomname.string)
  return List.intercalate [' '] newBlockLabel

/-- boolf/methods/_pretty/hypersplits_pretty/__init__.py:21-33, one hypersplit -/
def hypersplitPretty (names : List Name) (old : List Nat × Dict (List Char) (List Nat)) : Except Err (Dict (List Char) (List Nat)) := do
  let newMolecule ← old.1.mapM fun atomkey => item names atomkey
  return Dict.ofPairs (← old.2.mapM fun b : List Char × List Nat => do return (← labelPretty newMolecule b.1, b.2))

/-- boolf/methods/_pretty/hypersplits_pretty/__init__.py:5-42, without `print_only` -/
noncomputable def Boolf.hypersplitsPretty (f : Boolf) (atomnames : Option (List Name) := none) : Except Err (Dict Nat (List (Dict (List Char) (List Nat)))) := do
  let names ← f.chooseNames atomnames
  return Dict.ofPairs (← (← f.hypersplitsDetailed).mapM fun p : Nat × List (List Nat × Dict (List Char) (List Nat)) => do
    return (p.1, ← p.2.mapM fun old => hypersplitPretty names old))

/-- a/balanced_ternary_vector_to_string/__init__.py:1-11 -/
def balancedTernaryVectorToString (vector : List Int) : Except Err (List Char) :=
  vector.mapM fun entry => if entry = -1 then .ok '−' else if entry = 0 then .ok '0' else if entry = 1 then .ok '+' else .error .keyError

/-- an entry of the result of `hypersplits_potential_cores_pretty` -/
structure PrettyCore where
  fixed : List Char
  free : List Char
  determined : List Char
  vectors : List (List Char)

/-- `''.join([atomnames[atomkey] for atomkey in keys])` -/
def joinNames (names : List Name) (keys : List Nat) : Except Err (List Char) := do
  let l ← keys.mapM fun atomkey => item names atomkey
  return (← l.mapM Name.string).flatten

/-- boolf/methods/_pretty/hypersplits_potential_cores_pretty/__init__.py:26-28 -/
def determinedPretty (names : List Name) (p : Nat × Int) : Except Err (List Char) := do
  let atomname ← item names p.1
  let strVal ← if p.2 = -1 then .ok '−' else if p.2 = 1 then .ok '+' else .error .keyError
  return (← atomname.string) ++ [strVal]

/-- boolf/methods/_pretty/hypersplits_potential_cores_pretty/__init__.py:21-36, one core -/
def corePretty (names : List Name) (old : Core) : Except Err PrettyCore := do
  let newFixed ← joinNames names old.fixed
  let newFree ← joinNames names old.free
  let newDetermined ← old.determined.mapM (determinedPretty names)
  let newVectors ← old.vectors.mapM balancedTernaryVectorToString
  return ⟨newFixed, newFree, List.intercalate [' '] newDetermined, newVectors⟩

/-- boolf/methods/_pretty/hypersplits_potential_cores_pretty/__init__.py:5-45, without `print_only` -/
noncomputable def Boolf.coresPretty (f : Boolf) (atomnames : Option (List Name) := none) : Except Err (Dict Nat (List PrettyCore)) := do
  let names ← f.chooseNames atomnames
  return Dict.ofPairs (← (← f.hypersplitsPotentialCores).mapM fun p : Nat × List Core => do
    return (p.1, ← p.2.mapM (corePretty names)))

end Verif.BF
