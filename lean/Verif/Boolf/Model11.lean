import Verif.Boolf.Model10
import Verif.Boolf.Model5
import Mathlib.Data.Rat.Defs

/-!
# Model of `Boolf` (boolf/), part 11: the minimal representatives of equivalence classes

A python `set` is a list of its elements, without repetitions where it matters.  The order in which python would iterate over it is not that of the list;
except in `int_to_sierpinski_row` the results do not depend on it.  `Boolf` objects in a set are compared as structures; for the functions that are made here this is the equality of
boolf/__init__.py:168-169.  The ratios of natural numbers are exact; python rounds them, which makes no difference for layers with less than `2 ^ 53` entries.
-/

namespace Verif.BF
open Verif.Py Verif.BV Verif.P Verif.W Verif.SP
open Verif.A hiding Mat

/-! ## partitions and twins -/

/-- a/int_to_sierpinski_row/__init__.py:14-18 and 24-33 for a natural number.  Line 24 iterates over a python `set`: `order` is the function that gives, for
the ascending list of the elements of a set, the list in which python iterates over them.  (binv/metributes/exposet.py:7 inserts them in ascending order.) -/
def intToSierpinskiRow (order : List Nat → List Nat) (intval : Nat) : Except Err (List Nat) :=
  if intval = 0 then .ok [0]
  else do sierpinskiRow (order (← BV.mk { intval := some (intval : Int) }).exposet)

/-- boolf/a/sierpinski_partition/atom_partition.py:5-17 -/
def atomPartition (atomval arity : Nat) : Except Err (SetPart Unit) := do
  let addend := 1 <<< atomval
  let gen ← atompatternGen (atomval : Int) arity true
  newPart ((gen.zipIdx.filter fun vk => vk.1).map fun vk => [((vk.2 : Nat) : Int), ((vk.2 + addend : Nat) : Int)])

/-- boolf/a/sierpinski_partition/__init__.py:13-16 for the remaining atoms -/
def sierpinskiPartitionLoop (arity : Nat) : List Nat → SetPart Unit → Except Err (SetPart Unit)
  | [], result => .ok result
  | atomval :: rest, result => do sierpinskiPartitionLoop arity rest (← result.join (← atomPartition atomval arity))

/-- boolf/a/sierpinski_partition/__init__.py:7-18 -/
def sierpinskiPartition (n arity : Nat) : Except Err (SetPart Unit) := do
  sierpinskiPartitionLoop arity (intToExposet n) (← newPart [])

/-- `l[key] = val` for a list and a natural key that is stored as an integer -/
def setEntry {α : Type} (l : List α) (key : Int) (val : α) : Except Err (List α) :=
  if key.toNat < l.length then .ok (l.set key.toNat val) else .error .indexError

/-- boolf/a/sierpinski_twin/__init__.py:28-29 for the remaining keys of the block -/
def blockLoop (val : Bool) : List Int → List Bool → Except Err (List Bool)
  | [], big => .ok big
  | key :: rest, big => do blockLoop val rest (← setEntry big key val)

/-- boolf/a/sierpinski_twin/__init__.py:26-29 for the remaining pairs of key and value -/
def twinLoop (blocks : List (List Int)) : List (Bool × Nat) → List Bool → Except Err (List Bool)
  | [], big => .ok big
  | (val, smallKey) :: rest, big =>
    match blocks[smallKey]? with
    | none => .error .indexError
    | some block => do twinLoop blocks rest (← blockLoop val block big)

/-- boolf/a/sierpinski_twin/__init__.py:5-31 for a list of truth values -/
def sierpinskiTwin (smallTT : List Bool) (sierpinskiIndex bigArity : Nat) : Except Err (List Bool) := do
  let weight := intToWeight sierpinskiIndex
  let smallArity ← logInt smallTT.length
  if weight + smallArity = bigArity then
    let smallTwin ← vectorToTwin smallTT smallArity
    if sierpinskiIndex = 0 then return smallTwin
    else
      let partition ← sierpinskiPartition sierpinskiIndex bigArity
      let blocks := partition.blocks
      if blocks.length = smallTwin.length ∧ smallTwin.length = smallTT.length then
        twinLoop blocks smallTwin.zipIdx (List.replicate (1 <<< bigArity) false)
      else .error .assertion
  else .error .assertion

/-! ## cosets of permutations -/

/-- a/schoute_coset_gen/__init__.py:26-28 and 29-31 for the remaining pairs of value and place -/
def placeLoop (keys : List Nat) : List (Nat × Nat) → List Nat → Except Err (List Nat)
  | [], perm => .ok perm
  | (val, i) :: rest, perm =>
    match keys[i]? with
    | none => .error .indexError
    | some key => if key < perm.length then placeLoop keys rest (perm.set key val) else .error .indexError

/-- a/schoute_coset_gen/__init__.py:7-32, the generated list -/
def schouteCosetGen (keyInt valInt arity : Nat) : Except Err (List Nat) :=
  if keyInt < 1 <<< arity ∧ valInt < 1 <<< arity then
    let rectoKeys := intToExposet keyInt
    let versoKeys := (List.range arity).filter fun x => !rectoKeys.contains x
    let rectoVals := intToExposet valInt
    let versoVals := (List.range arity).filter fun x => !rectoVals.contains x
    let pairs := (permutations rectoVals).flatMap fun rectoPerm => (permutations versoVals).map fun reversePerm => (rectoPerm, reversePerm)
    pairs.mapM fun rv => do
      let perm ← placeLoop rectoKeys rv.1.zipIdx (List.replicate arity 0)
      let perm ← placeLoop versoKeys rv.2.zipIdx perm
      return fromFactoradic (leftInversionCount perm)
  else .error .assertion

/-! ## common parts -/

/-- `self.apply_sigperm(SigPerm(pair=(m, n)))`, boolf/metributes/_ec_reps/minimal/family_minrep/__init__.py:61, boolf/metributes/_ec_reps/minimal/faction_minrep/__init__.py:62,
boolf/metributes/_ec_reps/minimal/clan_minrep/variant_1_production.py:95 -/
noncomputable def Boolf.pairMember (f : Boolf) (m n : Nat) : Except Err Boolf := do
  f.applySigperm (.sigperm (← SG.new { pair := some ((m : Int), (n : Int)) }))

/-- boolf/metributes/_ec_reps/minimal/family_minrep/__init__.py:57-68, boolf/metributes/_ec_reps/minimal/faction_minrep/__init__.py:58-69, boolf/metributes/_ec_reps/minimal/clan_minrep/variant_1_production.py:91-102
for the remaining candidates and the set `rep_candidates`; `none`, if not `finished`.  The set has never more than one element when `pop` is called. -/
noncomputable def repLoop {α : Type} (member : α → Except Err Boolf) : List α → List Boolf → Except Err (Option Boolf)
  | [], reps =>
    match reps with
    | [] => .error .keyError
    | rep :: _ => .ok (some rep)
  | c :: rest, reps => do
    let g ← member c
    let reps := if g ∈ reps then reps else g :: reps
    if reps.length > 1 then return none else repLoop member rest reps

/-- The candidates that remain; `none` is the python value `None`.  boolf/metributes/_ec_reps/minimal/family_minrep/__init__.py:48-55,
boolf/metributes/_ec_reps/minimal/faction_minrep/__init__.py:49-56, boolf/metributes/_ec_reps/minimal/clan_minrep/variant_1_production.py:79-87 -/
def narrow {α : Type} [DecidableEq α] (all : Option (List α)) (step : List α) : List α :=
  match all with
  | some all => all.filter fun c => step.contains c
  | none => step

/-! ## families -/

/-- boolf/metributes/_ec_reps/minimal/family_minrep/__init__.py:30-68 for the remaining values of `right_index`, with the variables `all_candidates` and
`snooze`; `none` is the python value `None`, which a function without return statement gives. -/
noncomputable def Boolf.familyMinrepLoop (order : List Nat → List Nat) (f : Boolf) (arity length : Nat) (baseRow : Binv) : List Nat → Option (List Nat) → Bool → Except Err (Option Boolf)
  | [], _, _ => .ok none
  | rightIndex :: rest, allCandidates, snooze => do
    let leftIndex := length - rightIndex - 1
    if snooze && !(← baseRow.getItem leftIndex) then f.familyMinrepLoop order arity length baseRow rest allCandidates true
    else
      let places ← intToSierpinskiRow order rightIndex
      let smallTT ← places.mapM fun place => baseRow.getItem (leftIndex + place)
      if bsum (smallTT.drop 1) = 0 then f.familyMinrepLoop order arity length baseRow rest allCandidates false
      else
        let greenColumn ← sierpinskiTwin smallTT leftIndex arity
        let stepCandidates := (greenColumn.zipIdx.filter fun vk => !vk.1).map Prod.snd
        let newCandidates := narrow allCandidates stepCandidates
        if allCandidates.isSome && newCandidates.isEmpty then f.familyMinrepLoop order arity length baseRow rest allCandidates false
        else
          match ← repLoop (fun c => f.pairMember c 0) newCandidates [] with
          | some rep => return some rep
          | none => f.familyMinrepLoop order arity length baseRow rest (some newCandidates) false

/-- boolf/metributes/_ec_reps/minimal/family_minrep/__init__.py:8-68 -/
noncomputable def Boolf.familyMinrep (order : List Nat → List Nat) (f : Boolf) : Except Err (Option Boolf) :=
  if f.isConstant then .ok (some f)
  else do
    let arity := f.adicity
    let baseRow ← (← f.twin).tt (.arity arity)
    let length := 1 <<< arity
    f.familyMinrepLoop order arity length baseRow (List.range length) none true

/-! ## factions -/

/-- boolf/metributes/_ec_reps/minimal/faction_minrep/__init__.py:21-24, boolf/metributes/_ec_reps/minimal/clan_minrep/variant_1_production.py:25-27 for one layer -/
def layerRatio (places : List Nat × List Nat) : Except Err Rat :=
  let falseLength := places.1.length
  let trueLength := places.2.length
  if falseLength + trueLength = 0 then .error .zeroDivision else .ok ((trueLength : Rat) / ((falseLength + trueLength : Nat) : Rat))

/-- boolf/metributes/_ec_reps/minimal/faction_minrep/__init__.py:20-24, boolf/metributes/_ec_reps/minimal/clan_minrep/variant_1_production.py:24-27 -/
def layerRatios (layers : Dict Nat (List Nat × List Nat)) : Except Err (Dict Nat Rat) :=
  layers.mapM fun kp => do return (kp.1, ← layerRatio kp.2)

/-- python `d[k]` -/
def dictGet {α β : Type} [DecidableEq α] (d : Dict α β) (k : α) : Except Err β :=
  match d.get? k with
  | some v => .ok v
  | none => .error .keyError

/-- boolf/metributes/_ec_reps/minimal/faction_minrep/schoute_wrapper/__init__.py:12-14, boolf/metributes/_ec_reps/minimal/clan_minrep/schoute_wrapper/__init__.py:16-18 -/
def foundLoop (haystackIndex arity : Nat) : List Nat → List Nat → Except Err (List Nat)
  | [], found => .ok found
  | needle :: rest, found => do
    let coset ← schouteCosetGen needle haystackIndex arity
    foundLoop haystackIndex arity rest (coset.foldl (fun found k => if k ∈ found then found else found ++ [k]) found)

/-- boolf/metributes/_ec_reps/minimal/faction_minrep/schoute_wrapper/__init__.py:4-25 -/
def factionSchouteWrapper (haystackIndex arity : Nat) (layers : Dict Nat (List Nat × List Nat)) (layerIndex : Nat) (ratio : Rat) : Except Err (List Nat) := do
  let doComplement := decide (ratio < 1 / 2)
  let places ← dictGet layers layerIndex
  let needles := if doComplement then places.2 else places.1
  let found ← foundLoop haystackIndex arity needles []
  if doComplement then return (List.range (Nat.factorial arity)).filter fun k => !found.contains k else return found

/-- boolf/metributes/_ec_reps/minimal/faction_minrep/__init__.py:40-69 for the remaining values of `right_index` -/
noncomputable def Boolf.factionMinrepLoop (f : Boolf) (arity length : Nat) (layers : Dict Nat (List Nat × List Nat)) (ratios : Dict Nat Rat) :
    List Nat → Option (List Nat) → Except Err (Option Boolf)
  | [], _ => .ok none
  | rightIndex :: rest, allCandidates => do
    let leftIndex := length - rightIndex - 1
    let layerIndex := intToWeight leftIndex
    let ratio ← dictGet ratios layerIndex
    if ratio = 0 ∨ ratio = 1 then f.factionMinrepLoop arity length layers ratios rest allCandidates
    else
      let stepCandidates ← factionSchouteWrapper leftIndex arity layers layerIndex ratio
      let newCandidates := narrow allCandidates stepCandidates
      if allCandidates.isSome && newCandidates.isEmpty then f.factionMinrepLoop arity length layers ratios rest allCandidates
      else
        match ← repLoop (fun c => f.pairMember 0 c) newCandidates [] with
        | some rep => return some rep
        | none => f.factionMinrepLoop arity length layers ratios rest (some newCandidates)

/-- boolf/metributes/_ec_reps/minimal/faction_minrep/__init__.py:9-69 -/
noncomputable def Boolf.factionMinrep (f : Boolf) : Except Err (Option Boolf) :=
  if f.isConstant then .ok (some f)
  else do
    let arity := f.adicity
    let layers ← flatToPlaces (← (← f.twin).tt (.arity arity)).vector
    let ratios ← layerRatios layers
    let isSymmetric := ratios.all fun kr => decide (kr.2 = 0 ∨ kr.2 = 1)
    if isSymmetric then return some f
    else
      let length := 1 <<< arity
      f.factionMinrepLoop arity length layers ratios (List.range' 1 (length - 1)) none

/-! ## clans -/

/-- boolf/metributes/_ec_reps/minimal/clan_minrep/schoute_wrapper/__init__.py:4-29 -/
def clanSchouteWrapper (haystackIndex arity : Nat) (layers : Dict Nat (List Nat × List Nat)) (ratios : Dict Nat Rat) : Except Err (List Nat) := do
  let layerIndex := intToWeight haystackIndex
  let ratio ← dictGet ratios layerIndex
  let doComplement := decide (ratio > 1 / 2)
  let places ← dictGet layers layerIndex
  let needles := if !doComplement then places.2 else places.1
  let found ← foundLoop haystackIndex arity needles []
  if doComplement then return (List.range (Nat.factorial arity)).filter fun k => !found.contains k else return found

/-- boolf/metributes/_ec_reps/minimal/clan_minrep/variant_1_production.py:50-53 for the remaining keys of the difference of sets -/
def blueRowsLoop (arity : Nat) (layers : Dict Nat (List Nat × List Nat)) (ratios : Dict Nat Rat) : List Nat → Dict Nat (List Nat) → Except Err (Dict Nat (List Nat))
  | [], rows => .ok rows
  | key :: rest, rows => do blueRowsLoop arity layers ratios rest (rows.set key (← clanSchouteWrapper key arity layers ratios))

/-- boolf/metributes/_ec_reps/minimal/clan_minrep/variant_1_production.py:61-67 for the remaining values of `col_index`, with the dictionaries
`small_to_col_indices` and `small_to_big`.  (The tuple `small` is never empty.) -/
def smallLoop (leftIndex arity : Nat) (blueKeys : List Nat) (rows : Dict Nat (List Nat)) :
    List Nat → Dict (List Bool) (List Nat) → Dict (List Bool) (List Bool) → Except Err (Dict (List Bool) (List Nat) × Dict (List Bool) (List Bool))
  | [], cols, bigs => .ok (cols, bigs)
  | colIndex :: rest, cols, bigs => do
    let small ← blueKeys.mapM fun key => do return (← dictGet rows key).contains colIndex
    let cols := cols.set small (((cols.get? small).getD []) ++ [colIndex])
    let bigs ← match bigs.get? small with
      | some _ => pure bigs
      | none => do
        let compSmall ← match small with
          | [] => throw .indexError
          | first :: others => pure ((!first) :: others)
        pure (bigs.set small (← sierpinskiTwin compSmall leftIndex arity))
    smallLoop leftIndex arity blueKeys rows rest cols bigs

/-- boolf/metributes/_ec_reps/minimal/clan_minrep/variant_1_production.py:69-74 for the remaining items of `small_to_col_indices`; the sets for different
items, and for different values of `row_index`, have no pairs in common. -/
def applicantsLoop (bigs : Dict (List Bool) (List Bool)) : List (List Bool × List Nat) → List (Nat × Nat) → Except Err (List (Nat × Nat))
  | [], applicants => .ok applicants
  | (small, colIndices) :: rest, applicants => do
    let big ← dictGet bigs small
    applicantsLoop bigs rest (applicants ++ (big.zipIdx.filter fun vk => vk.1).flatMap fun vk => colIndices.map fun colIndex => (vk.2, colIndex))

/-- boolf/metributes/_ec_reps/minimal/clan_minrep/variant_1_production.py:40-102 for the remaining values of `right_index`, with the variables
`set_of_candidates` and `dict_of_blue_rows` -/
noncomputable def Boolf.clanMinrepLoop (order : List Nat → List Nat) (f : Boolf) (arity plenty galore : Nat) (layers : Dict Nat (List Nat × List Nat)) (ratios : Dict Nat Rat) :
    List Nat → Option (List (Nat × Nat)) → Dict Nat (List Nat) → Except Err (Option Boolf)
  | [], _, _ => .ok none
  | rightIndex :: rest, candidates, rows => do
    let leftIndex := plenty - rightIndex - 1
    let blueIndices ← intToSierpinskiRow order rightIndex
    let blueKeys := blueIndices.map (· ^^^ leftIndex)
    if blueKeys = sorted blueKeys then
      let rows ← blueRowsLoop arity layers ratios (blueKeys.dedup.filter fun key => !rows.keys.contains key) rows
      let (cols, bigs) ← smallLoop leftIndex arity blueKeys rows (List.range galore) [] []
      let applicants ← applicantsLoop bigs cols []
      if applicants.isEmpty then f.clanMinrepLoop order arity plenty galore layers ratios rest candidates rows
      else
        let newCandidates := narrow candidates applicants
        if candidates.isSome && newCandidates.isEmpty then f.clanMinrepLoop order arity plenty galore layers ratios rest candidates rows
        else
          match ← repLoop (fun c => f.pairMember c.1 c.2) newCandidates [] with
          | some rep => return some rep
          | none => f.clanMinrepLoop order arity plenty galore layers ratios rest (some newCandidates) rows
    else .error .assertion

/-- boolf/metributes/_ec_reps/minimal/clan_minrep/variant_1_production.py:12-102 -/
noncomputable def Boolf.clanMinrep (order : List Nat → List Nat) (f : Boolf) : Except Err (Option Boolf) :=
  if f.isConstant then .ok (some f)
  else do
    let arity := f.adicity
    let plenty := 1 <<< arity
    let galore := Nat.factorial arity
    let layers ← flatToPlaces (← (← f.twin).tt (.arity arity)).vector
    let ratios ← layerRatios layers
    f.clanMinrepLoop order arity plenty galore layers ratios (List.range' 1 (plenty - 1)) none []

end Verif.BF
