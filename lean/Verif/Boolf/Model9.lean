import Verif.Boolf.Model8

/-!
# Model of `Boolf` (boolf/), part 9: fissions
-/

namespace Verif.BF
open Verif.Py Verif.BV Verif.P Verif.W Verif.SP
open Verif.A hiding Mat

/-! ## sequences -/

/-- a/repeat_sequence/__init__.py:4-20; `%` raises `ZeroDivisionError` for an empty sequence -/
def repeatSequence {α : Type} (short : List α) (targetLength : Int) : Except Err (List α) :=
  if targetLength < 0 then .error .assertion
  else if short.length = 0 then .error .zeroDivision
  else if targetLength.toNat % short.length ≠ 0 then .error .assertion
  else .ok (List.replicate (targetLength.toNat / short.length) short).flatten

/-- boolf/a/atom_indices_to_sequence/__init__.py:18-20, with the index of the entry -/
def addPlace (boolf : Boolf) (placeValue : Nat) (p : Nat × Nat) : Except Err Nat := do
  if ← boolf.getItem p.2 then return p.1 + placeValue
  return p.1

/-- boolf/a/atom_indices_to_sequence/__init__.py:14-20 for the remaining pairs (`atom_index`, `i`) -/
noncomputable def placesOf : List (Int × Nat) → List Nat → Except Err (List Nat)
  | [], result => .ok result
  | (atomIndex, i) :: rest, result => do
    if atomIndex < 0 then .error .assertion
    let boolf ← new { atom := some atomIndex }
    placesOf rest (← result.zipIdx.mapM (addPlace boolf (2 ^ i)))

/-- boolf/a/atom_indices_to_sequence/__init__.py:4-25; `max` of an empty list raises `ValueError`; for a negative exponent `2 ** arity` is a float, which
raises `TypeError` in line 12 -/
noncomputable def atomIndicesToSequence (exposet : List Int) (targetLength : Option Int := none) : Except Err (List Nat) :=
  if exposet.dedup.length ≠ exposet.length then .error .assertion
  else if exposet = [] then .error .valueError
  else if maxInt exposet + 1 < 0 then .error .typeError
  else do
    let length := 2 ^ (maxInt exposet + 1).toNat
    let result ← placesOf exposet.zipIdx (List.replicate length 0)
    match targetLength with
    | none => return result
    | some t => repeatSequence result t

/-- boolf/a/sequence_to_entry_counts/__init__.py:9-11 for the remaining elements -/
def entryCountsLoop : List Nat → Dict Nat Nat → List Nat → List Nat
  | [], _, result => result
  | element :: rest, elementToCount, result =>
    let count := (elementToCount.get? element).getD 0
    entryCountsLoop rest (elementToCount.set element (count + 1)) (result ++ [count])

/-- boolf/a/sequence_to_entry_counts/__init__.py:4-13, for natural numbers -/
def sequenceToEntryCounts (sequence : List Nat) : List Nat := entryCountsLoop sequence [] []

/-! ## fissions -/

/-- a/vector_zip_apart/__init__.py:6-25 for a vector of type `Binv` -/
def zipApartBinv (vector : Binv) (pattern : List Int) : Except Err (List Binv) := do
  (← vectorZipApart vector.vector pattern).mapM ofBools

/-- boolf/metributes/_fissions/fissions/work.py:5-19 -/
def Boolf.fissions (f : Boolf) : Except Err (List (Binv × Binv)) :=
  if f.adicity > 0 then do
    let atompatterns ← makeAtompatterns f.adicity
    let tt ← f.tt
    if tt.length = 2 ^ f.adicity then
      atompatterns.mapM fun atompattern : Binv => do
        match ← zipApartBinv tt (atompattern.vector.map fun b => (b.toNat : Int)) with
        | [a, b] => return (a, b)
        | _ => .error .valueError
    else .error .assertion
  else .error .assertion

/-- the integers of a binary vector, `[int(_) for _ in a]` -/
def ints (b : Binv) : List Int := b.vector.map fun x => (x.toNat : Int)

/-- boolf/metributes/_fissions/fissions/work.py:20-25 -/
def Boolf.fissionsLayered (f : Boolf) : Except Err (List (List (List Int) × List (List Int))) := do
  (← f.fissions).mapM fun p : Binv × Binv => do return (← flatToLayered (ints p.1), ← flatToLayered (ints p.2))

/-- boolf/metributes/_fissions/fissions_weight/work.py:6-10 -/
def Boolf.fissionsWeightLayered (f : Boolf) : Except Err (List (List Int × List Int)) := do
  return (← f.fissionsLayered).map fun p => (p.1.map List.sum, p.2.map List.sum)

/-- boolf/metributes/_fissions/fissions_weight/work.py:12-13 -/
def Boolf.fissionsWeight (f : Boolf) : Except Err (List (Int × Int)) := do
  return (← f.fissionsWeightLayered).map fun p => (p.1.sum, p.2.sum)

/-- boolf/metributes/_fissions/fission_walsh_spectra/work.py:13-21 and 29 -/
def Boolf.fissionWalshSpectra (f : Boolf) : Except Err (List (List Int × List Int)) := do
  return (← f.fissions).map fun p => (fwht (ints p.1), fwht (ints p.2))

/-- the absolute values of a vector -/
def absAll (l : List Int) : List Int := l.map fun x => |x|

/-- boolf/metributes/_fissions/fission_walsh_spectra/work.py:13-25 and 30 -/
def Boolf.fissionWalshSpectraAbs (f : Boolf) : Except Err (List (List Int × List Int)) := do
  return (← f.fissionWalshSpectra).map fun p => (absAll p.1, absAll p.2)

/-- boolf/metributes/_fissions/fission_walsh_spectra/work.py:13-21 and 31 -/
def Boolf.fissionWalshSpectraLayered (f : Boolf) : Except Err (List (List (List Int) × List (List Int))) := do
  (← f.fissionWalshSpectra).mapM fun p : List Int × List Int => do return (← flatToLayered p.1, ← flatToLayered p.2)

/-- boolf/metributes/_fissions/fission_walsh_spectra/work.py:13-25 and 32 -/
def Boolf.fissionWalshSpectraLayeredAbs (f : Boolf) : Except Err (List (List (List Int) × List (List Int))) := do
  (← f.fissionWalshSpectraAbs).mapM fun p : List Int × List Int => do return (← flatToLayered p.1, ← flatToLayered p.2)

/-- boolf/metributes/_fissions/fission_walsh_spectra_zipped/work.py:4-16 and 21 -/
def Boolf.fissionWalshSpectraZipped (f : Boolf) : Except Err (List (List Int)) := do
  let atompatterns ← makeAtompatterns f.adicity
  (List.range f.adicity).mapM fun i : Nat => do
    match atompatterns[i]?, (← f.fissionWalshSpectra)[i]? with
    | some atompattern, some (a, b) => vectorZipTogether [a, b] (atompattern.vector.map Bool.toNat)
    | _, _ => .error .indexError

/-- boolf/metributes/_fissions/fission_walsh_spectra_zipped/work.py:18-19 and 22 -/
def Boolf.fissionWalshSpectraAbsZipped (f : Boolf) : Except Err (List (List Int)) := do
  return (← f.fissionWalshSpectraZipped).map absAll

/-! ## hyperfissions -/

/-- boolf/methods/_hyperfission/hyperfission/__init__.py:5-14; a negative index counts from the end -/
noncomputable def Boolf.hyperfission (f : Boolf) (dimensions : List Int) : Except Err (List Binv) :=
  match dimensions with
  | [] => do return [← f.tt]
  | [d] => do
    let fissions ← f.fissions
    let i := if d < 0 then d + fissions.length else d
    if i < 0 then .error .indexError
    else
      match fissions[i.toNat]? with
      | some (a, b) => return [a, b]
      | none => .error .indexError
  | _ => do
    let sequence ← atomIndicesToSequence dimensions (some ((2 ^ f.adicity : Nat) : Int))
    zipApartBinv (← f.tt) (sequence.map Int.ofNat)

/-- boolf/methods/_hyperfission/hyperfission_walsh_spectra/__init__.py:4-13 -/
noncomputable def Boolf.hyperfissionWalshSpectra (f : Boolf) (dimensions : List Int) : Except Err (List (List Int)) := do
  return (← f.hyperfission dimensions).map fun binv => fwht (ints binv)

/-- boolf/methods/_hyperfission/hyperfission_walsh_spectra_abs/__init__.py:1-9 -/
noncomputable def Boolf.hyperfissionWalshSpectraAbs (f : Boolf) (dimensions : List Int) : Except Err (List (List Int)) := do
  return (← f.hyperfissionWalshSpectra dimensions).map absAll

/-- boolf/methods/_hyperfission/hyperfission_walsh_spectra_layered_abs/__init__.py:4-12 -/
noncomputable def Boolf.hyperfissionWalshSpectraLayeredAbs (f : Boolf) (dimensions : List Int) : Except Err (List (List (List Int))) := do
  (← f.hyperfissionWalshSpectraAbs dimensions).mapM flatToLayered

/-- `l[0]` -/
def firstOf {α : Type} : List α → Except Err α
  | [] => .error .indexError
  | x :: _ => .ok x

/-- boolf/methods/_hyperfission/hyperfission_walsh_spectra_zipped/__init__.py:5-14 -/
noncomputable def Boolf.hyperfissionWalshSpectraZipped (f : Boolf) (dimensions : List Int) : Except Err (List Int) := do
  let walshSpectra ← f.hyperfissionWalshSpectra dimensions
  if dimensions.length = 0 then firstOf walshSpectra
  else
    let sequence ← atomIndicesToSequence dimensions (some ((2 ^ f.adicity : Nat) : Int))
    vectorZipTogether walshSpectra sequence

/-- boolf/methods/_hyperfission/hyperfission_walsh_spectra_labeled/__init__.py:19-22 for the remaining triples (`i`, `outer_index`, `inner_index`) -/
def labelLoop : List (Nat × Nat × Nat) → List (List (Option Nat)) → Except Err (List (List (Option Nat)))
  | [], labels => .ok labels
  | (i, outer, inner) :: rest, labels =>
    match labels[outer]? with
    | none => .error .indexError
    | some row => if inner < row.length then labelLoop rest (labels.set outer (row.set inner (some i))) else .error .indexError

/-- the two kinds of results of `hyperfission_walsh_spectra_labeled` -/
inductive Labeled
  | vector (l : List Int)
  | dict (d : Dict (List (Option Nat)) (List Int))

/-- boolf/methods/_hyperfission/hyperfission_walsh_spectra_labeled/__init__.py:4-29; `sequence[i]` and `entry_counts[i]` exist, because both lists have
`sequence_length` entries -/
noncomputable def Boolf.hyperfissionWalshSpectraLabeled (f : Boolf) (dimensions : List Int) : Except Err Labeled := do
  let walshSpectra ← f.hyperfissionWalshSpectra dimensions
  if dimensions.length = 0 then return .vector (← firstOf walshSpectra)
  let sequenceLength := 2 ^ f.adicity
  let sequence ← atomIndicesToSequence dimensions (some (sequenceLength : Nat))
  let entryCounts := sequenceToEntryCounts sequence
  let innerLength := (← firstOf walshSpectra).length
  let labels ← labelLoop ((List.range sequenceLength).zip (sequence.zip entryCounts))
    (List.replicate walshSpectra.length (List.replicate innerLength none))
  return .dict (Dict.ofPairs (labels.zip walshSpectra))

end Verif.BF
