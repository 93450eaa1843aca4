import Verif.Boolf.Model7

/-!
# Model of `Boolf` (boolf/), part 8: full spots by weight, hypersplits
-/

namespace Verif.BF
open Verif.Py Verif.BV Verif.P Verif.W Verif.SP
open Verif.A hiding Mat

/-! ## full spots by weight -/

/-- boolf/metributes/_basics/fullspot_atoms/__init__.py:6-15; the order of the keys is that of a python set, here ascending -/
def Boolf.fullspotAtoms (f : Boolf) : Except Err (Dict Nat (List Nat)) := do
  return Dict.ofPairs (← f.fullspots.mapM fun spot : Nat => do
    return (spot, ((← BV.mk { intval := some (spot : Int) }).exposet).insertionSort (· ≤ ·)))

/-- boolf/metributes/_basics/fullspots_by_weight/__init__.py:71-74 for the remaining items -/
def weightLoop : List (Nat × List Nat) → Dict Nat (Dict Nat (List Nat)) → Dict Nat (List Nat) → Dict Nat (Dict Nat (List Nat)) × Dict Nat (List Nat)
  | [], detailed, simple => (detailed, simple)
  | (spot, atomkeys) :: rest, detailed, simple =>
    weightLoop rest (detailed.set atomkeys.length (((detailed.get? atomkeys.length).getD []).set spot atomkeys))
      (simple.set atomkeys.length (((simple.get? atomkeys.length).getD []) ++ [spot]))

/-- boolf/metributes/_basics/fullspots_by_weight/__init__.py:67-81 and 84 -/
def Boolf.fullspotsByWeight (f : Boolf) : Except Err (Dict Nat (Dict Nat (List Nat))) := do
  return (weightLoop (← f.fullspotAtoms) [] []).1

/-- boolf/metributes/_basics/fullspots_by_weight/__init__.py:67-79 and 85 -/
def Boolf.layeredFullspots (f : Boolf) : Except Err (List (List Nat)) := do
  let simple := (weightLoop (← f.fullspotAtoms) [] []).2
  return (List.range (f.valency + 1)).map fun weight => ((simple.get? weight).getD []).insertionSort (· ≤ ·)

/-- boolf/metributes/_basics/fullspots_by_weight/__init__.py:82 and 86 -/
def Boolf.fullspotWeights (f : Boolf) : Except Err (List Nat) := do
  return (← f.fullspotsByWeight).keys.insertionSort (· ≤ ·)

/-- boolf/metributes/_basics/fullspotlinks_by_weight/__init__.py:61-77 for one pair of dicts: the links in the order of the loop -/
def linksOf (lower upper : Dict Nat (List Nat)) : List (Nat × Nat) :=
  ((lower.keys.flatMap fun a => upper.keys.map fun b => (a, b)).filter fun p =>
    ((lower.get? p.1).getD []).all fun k => ((upper.get? p.2).getD []).contains k)

/-- the order of python tuples of two numbers -/
def pairLe (p q : Nat × Nat) : Prop := p.1 < q.1 ∨ (p.1 = q.1 ∧ p.2 ≤ q.2)

instance : DecidableRel pairLe := fun p q => by unfold pairLe; infer_instance

/-- boolf/metributes/_basics/fullspotlinks_by_weight/__init__.py:56-77 for the remaining values of `i` -/
def linksLoop (weights : List Nat) (byWeight : Dict Nat (Dict Nat (List Nat))) : List Nat → Dict Nat (List (Nat × Nat)) → Nat →
    Except Err (Dict Nat (List (Nat × Nat)) × Nat)
  | [], main, count => .ok (main, count)
  | i :: rest, main, count => do
    let lowerWeight ← item weights i
    if (← item weights (i + 1)) = lowerWeight + 1 then
      match byWeight.get? lowerWeight, byWeight.get? (lowerWeight + 1) with
      | some lower, some upper =>
        let actual := linksOf lower upper
        linksLoop weights byWeight rest (main.set lowerWeight (actual.insertionSort pairLe)) (count + actual.length)
      | _, _ => .error .keyError
    else linksLoop weights byWeight rest main count

/-- boolf/metributes/_basics/fullspotlinks_by_weight/__init__.py:47-80 -/
def Boolf.fullspotlinks (f : Boolf) : Except Err (Dict Nat (List (Nat × Nat)) × Nat) := do
  let weights ← f.fullspotWeights
  linksLoop weights (← f.fullspotsByWeight) (List.range (weights.length - 1)) [] 0

/-- boolf/metributes/_basics/fullspotlinks_by_weight/__init__.py:7-23 and 79 -/
def Boolf.fullspotlinksByWeight (f : Boolf) : Except Err (Dict Nat (List (Nat × Nat))) := do return (← f.fullspotlinks).1

/-- boolf/metributes/_basics/fullspotlinks_by_weight/__init__.py:27-43 and 80 -/
def Boolf.numberOfFullspotlinks (f : Boolf) : Except Err Nat := do return (← f.fullspotlinks).2

/-! ## hypersplits -/

/-- python's `combinations(l, 2)` -/
def pairsOf {α : Type} : List α → List (α × α)
  | [] => []
  | a :: rest => rest.map (fun b => (a, b)) ++ pairsOf rest

/-- boolf/metributes/hypersplits/__init__.py:40-42: the dict is among those already there (the comparison of the dicts starts with the atomkeys) -/
def alreadyThere (atomkeys : List Nat) (part : SetPart Unit) : List (List Nat × SetPart Unit) → Except Err Bool
  | [] => .ok false
  | e :: rest => do
    let here ← if e.1 = atomkeys then e.2.eq part else pure false
    return here || (← alreadyThere atomkeys part rest)

/-- boolf/metributes/hypersplits/__init__.py:28-44 for the remaining pairs -/
def hyperInner (fullspots : List Nat) (n : Nat) : List ((List Nat × SetPart Unit) × (List Nat × SetPart Unit)) → List (List Nat × SetPart Unit) →
    Except Err (List (List Nat × SetPart Unit))
  | [], new => .ok new
  | (old1, old2) :: rest, new => do
    let candidateAtomkeys := (old1.1 ∪ old2.1).insertionSort (· ≤ ·)
    let candidatePart ← old1.2.meet old2.2
    let candidateBlocks ← candidatePart.blocksWithSingletons { elements := some (fullspots.map Int.ofNat) }
    if candidateAtomkeys.length = n ∧ candidateBlocks.length = 2 ^ n then
      if (← alreadyThere candidateAtomkeys candidatePart new) then hyperInner fullspots n rest new
      else hyperInner fullspots n rest (new ++ [(candidateAtomkeys, candidatePart)])
    else hyperInner fullspots n rest new

/-- boolf/metributes/hypersplits/__init__.py:24-51; the recursion is bounded by fuel -/
def hyperLoop (fullspots : List Nat) : Nat → Nat → List (List Nat × SetPart Unit) → Dict Nat (List (List Nat × SetPart Unit)) →
    Except Err (Dict Nat (List (List Nat × SetPart Unit)))
  | 0, _, _, _ => .error .diverges
  | fuel + 1, n, old, result =>
    if old.length > 1 then do
      let new ← hyperInner fullspots n (pairsOf old) []
      if new.length > 0 then hyperLoop fullspots fuel (n + 1) new (result.set n new) else return result
    else return result

/-- boolf/metributes/hypersplits/__init__.py:10-53; the variable `old` holds `result[n-1]` -/
noncomputable def Boolf.hypersplits (f : Boolf) : Except Err (Dict Nat (List (List Nat × SetPart Unit))) := do
  if (← f.isBlightless) then
    let first ← (← f.splits).zipIdx.mapM fun p : (List Nat × List Nat) × Nat => do
      let part ← newPart [p.1.1.map Int.ofNat, p.1.2.map Int.ofNat]
      return ([p.2], part)
    hyperLoop f.fullspots (f.valency + 1) 2 first [(1, first)]
  else .error .notBlightless

/-- boolf/metributes/hypersplits_detailed/__init__.py:17-28 for one block index -/
def labeledBlock (fullspots : List Nat) (splits : List (List Nat × List Nat)) (atomkeys : List Nat) (n blockIndex : Nat) :
    Except Err (List Char × List Nat) := do
  let blockBinv ← BV.mk { intval := some (blockIndex : Int), length := some (n : Int) }
  let blockSet ← (List.range n).foldlM (fun (blockSet : List Nat) place => do
    let atomkey ← item atomkeys place
    let split ← item splits atomkey
    let inside ← item blockBinv.vector place
    return inter blockSet (if inside then split.1 else split.2)) fullspots
  return (blockBinv.string, blockSet.insertionSort (· ≤ ·))

/-- boolf/metributes/hypersplits_detailed/__init__.py:6-36 -/
noncomputable def Boolf.hypersplitsDetailed (f : Boolf) : Except Err (Dict Nat (List (List Nat × Dict (List Char) (List Nat)))) := do
  let splits ← f.splits
  return Dict.ofPairs (← (← f.hypersplits).mapM fun p : Nat × List (List Nat × SetPart Unit) => do
    return (p.1, ← p.2.mapM fun e : List Nat × SetPart Unit => do
      return (e.1, Dict.ofPairs (← (List.range (2 ^ p.1)).mapM fun i : Nat => labeledBlock f.fullspots splits e.1 p.1 i))))

/-- python's `product([-1, 1], repeat=n)` -/
def signTuples : Nat → List (List Int)
  | 0 => [[]]
  | n + 1 => (signTuples n).map ((-1) :: ·) ++ (signTuples n).map (1 :: ·)

/-- boolf/metributes/hypersplits_potential_cores/__init__.py:21-36 for the remaining pairs -/
noncomputable def coreLoop (f : Boolf) : List (Nat × Nat) → List Nat → Dict Nat Int → Except Err (List Nat × Dict Nat Int)
  | [], freeAtomkeys, determined => .ok (freeAtomkeys, determined)
  | (fixed, free) :: rest, freeAtomkeys, determined => do
    let filtrate ← f.filtratedPair fixed free
    if filtrate = ['1', '1', '1', '1'] then coreLoop f rest freeAtomkeys determined
    else if filtrate = ['0', '1', '1', '1'] ∨ filtrate = ['1', '0', '1', '1'] then
      if determined.get? free = none ∨ determined.get? free = some 1 then coreLoop f rest (freeAtomkeys.erase free) (determined.set free 1)
      else .error .assertion
    else if filtrate = ['1', '1', '0', '1'] ∨ filtrate = ['1', '1', '1', '0'] then
      if determined.get? free = none ∨ determined.get? free = some (-1) then coreLoop f rest (freeAtomkeys.erase free) (determined.set free (-1))
      else .error .assertion
    else .error .runtimeError

/-- an entry of `hypersplits_potential_cores` -/
structure Core where
  fixed : List Nat
  free : List Nat
  determined : Dict Nat Int
  vectors : List (List Int)

/-- boolf/metributes/hypersplits_potential_cores/__init__.py:39-50; all atomkeys are below the valency, so the assignments raise no `IndexError` -/
def coreVectors (valency : Nat) (freeAtomkeys : List Nat) (determined : Dict Nat Int) : List (List Int) :=
  let rawVector := determined.foldl (fun (vector : List Int) p => vector.set p.1 p.2) (List.replicate valency 0)
  (signTuples freeAtomkeys.length).map fun freeTuple =>
    (freeAtomkeys.zip freeTuple).foldl (fun (vector : List Int) p => vector.set p.1 p.2) rawVector

/-- boolf/metributes/hypersplits_potential_cores/__init__.py:16-58 for one hypersplit -/
noncomputable def Boolf.potentialCore (f : Boolf) (fixedAtomkeys : List Nat) : Except Err Core := do
  let freeAtomkeys := (List.range f.valency).filter fun k => !fixedAtomkeys.contains k
  let (free, determined) ← coreLoop f (fixedAtomkeys.flatMap fun a => freeAtomkeys.map fun b => (a, b)) freeAtomkeys []
  return ⟨fixedAtomkeys, free, determined, coreVectors f.valency free determined⟩

/-- boolf/metributes/hypersplits_potential_cores/__init__.py:6-62 -/
noncomputable def Boolf.hypersplitsPotentialCores (f : Boolf) : Except Err (Dict Nat (List Core)) := do
  if (← f.isBlightless) then
    return Dict.ofPairs (← (← f.hypersplits).mapM fun p : Nat × List (List Nat × SetPart Unit) => do
      return (p.1, ← p.2.mapM fun e : List Nat × SetPart Unit => f.potentialCore e.1))
  else .error .assertion

end Verif.BF
