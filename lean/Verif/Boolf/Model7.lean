import Verif.Boolf.Model6

/-!
# Model of `Boolf` (boolf/), part 7: gaps and bundles
-/

namespace Verif.BF
open Verif.Py Verif.BV Verif.P Verif.W Verif.SP
open Verif.A hiding Mat

/-- boolf/metributes/gapless_boolf/__init__.py:20-34: the string for one pair of splits -/
def gapString (split1 split2 : List Nat × List Nat) : Except Err (List Char) :=
  if inter split1.2 split2.2 = [] then .ok ['0', '1', '1', '1']
  else if inter split1.1 split2.2 = [] then .ok ['1', '0', '1', '1']
  else if inter split1.2 split2.1 = [] then .ok ['1', '1', '0', '1']
  else if inter split1.1 split2.1 = [] then .ok ['1', '1', '1', '0']
  else .error .tooManyOverlaps

/-- boolf/metributes/gapless_boolf/__init__.py:18-34 for the remaining pairs -/
noncomputable def gapLoop (f : Boolf) (splits : List (List Nat × List Nat)) : List (Nat × Nat) → Boolf → Except Err Boolf
  | [], result => .ok result
  | (a, b) :: rest, result => do
    let atomvalA ← item f.atomvals a
    let atomvalB ← item f.atomvals b
    let tt ← gapString (← item splits a) (← item splits b)
    gapLoop f splits rest (← result.and (← newTT (.str tt) (some [(atomvalA : Int), (atomvalB : Int)])))

/-- boolf/metributes/gapless_boolf/__init__.py:9-39 -/
noncomputable def Boolf.gaplessBoolf (f : Boolf) : Except Err Boolf := do
  if (← f.isBlightless) then
    let result ← gapLoop f (← f.splits) (← f.splitPairsWith3Overlaps) (← newTT (.str ['1']))
    if (← result.bitwiseGe f) then return result else .error .smallerThanSelf
  else .error .boolfNotBlightless

/-- boolf/metributes/_bundle/bundles/__init__.py:10-20 -/
noncomputable def Boolf.bundles (f : Boolf) : Except Err (List (List Int)) := do
  if f.eq (← f.bloatlessBoolf) then
    let pairs := ((← f.splitsOverlapCounts).filter fun p => decide (p.2 = 4)).map fun p => ((p.1.1 : Int), (p.1.2 : Int))
    let part : SetPart Unit ← mergeAll (newPart []) pairs
    part.blocksWithSingletons { length := some f.valency }
  else .error .boolfNotBlightless

/-- boolf/metributes/_bundle/is_bundle/__init__.py:4-7 -/
noncomputable def Boolf.isBundle (f : Boolf) : Except Err Bool := do return decide ((← f.bundles).length = 1)

/-- boolf/metributes/_bundle/bundle_overlap_counts/__init__.py:24-27 for the remaining bundles; the entries of the dict are the lists with
the keys 3 and 4 -/
def overlapInner (a b count : Nat) : List (List Int) → Dict (List Int) (List (Nat × Nat) × List (Nat × Nat)) →
    Except Err (Dict (List Int) (List (Nat × Nat) × List (Nat × Nat)))
  | [], result => .ok result
  | bundle :: rest, result =>
    if bundle.contains (a : Int) && bundle.contains (b : Int) then
      match result.get? bundle with
      | none => .error .keyError
      | some (three, four) =>
        if count = 3 then overlapInner a b count rest (result.set bundle (three ++ [(a, b)], four))
        else if count = 4 then overlapInner a b count rest (result.set bundle (three, four ++ [(a, b)]))
        else .error .keyError
    else overlapInner a b count rest result

/-- boolf/metributes/_bundle/bundle_overlap_counts/__init__.py:23-27 for the remaining pairs, with their counts -/
def overlapLoop (bundles : List (List Int)) : List ((Nat × Nat) × Nat) → Dict (List Int) (List (Nat × Nat) × List (Nat × Nat)) →
    Except Err (Dict (List Int) (List (Nat × Nat) × List (Nat × Nat)))
  | [], result => .ok result
  | ((a, b), count) :: rest, result => do overlapLoop bundles rest (← overlapInner a b count bundles result)

/-- boolf/metributes/_bundle/bundle_overlap_counts/__init__.py:8-29 -/
noncomputable def Boolf.bundleOverlapCounts (f : Boolf) : Except Err (Dict (List Int) (List (Nat × Nat) × List (Nat × Nat))) := do
  if f.eq (← f.bloatlessBoolf) then
    let bundles ← f.bundles
    overlapLoop bundles (← f.splitsOverlapCounts) (Dict.ofPairs (bundles.map fun bundle => (bundle, ([], []))))
  else .error .boolfNotBlightless

/-- boolf/metributes/_bundle/bundle_grid_partitions/__init__.py:19-23 for one bundle -/
def gridPartition (counts : Dict (List Int) (List (Nat × Nat) × List (Nat × Nat))) (bundle : List Int) : Except Err (SetPart Unit) :=
  match counts.get? bundle with
  | none => .error .keyError
  | some (three, _) => mergeAll (newPart []) (three.map fun p => ((p.1 : Int), (p.2 : Int)))

/-- boolf/metributes/_bundle/bundle_grid_partitions/__init__.py:10-25 -/
noncomputable def Boolf.bundleGridPartitions (f : Boolf) : Except Err (Dict (List Int) (SetPart Unit)) := do
  if (← f.isBlightless) then
    let bundles ← f.bundles
    let counts ← f.bundleOverlapCounts
    return Dict.ofPairs (← bundles.mapM fun bundle : List Int => do return (bundle, ← gridPartition counts bundle))
  else .error .boolfNotBlightless

end Verif.BF
