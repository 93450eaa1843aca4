import Verif.Boolf.Model5
import Verif.SetPartComp.Model

/-!
# Model of `Boolf` (boolf/), part 6: root, splits, bloat, blot and blight

A set of spots is the ascending list of its elements, so two sets are equal iff the lists are.  The atomkeys in the blocks of a
`SetPart` or `SetPartComp` are integers there; none of them is negative except the −1 in `blot` and `blight`.
The properties are cached by the code; their objects never change, so a stored value is the computed one.
-/

namespace Verif.BF
open Verif.Py Verif.BV Verif.P Verif.W Verif.SP Verif.SPC
open Verif.A hiding Mat

/-- `l[i]` -/
def item {α : Type} (l : List α) (i : Nat) : Except Err α :=
  match l[i]? with
  | some x => .ok x
  | none => .error .indexError

/-- boolf/metributes/fullspots/__init__.py:4-7 -/
def Boolf.fullspots (f : Boolf) : List Nat := f.root.exposet

/-- boolf/metributes/is_root/__init__.py:4-7 -/
def Boolf.isRoot (f : Boolf) : Bool := decide (f.adicity = f.valency)

/-- boolf/metributes/root_boolf/__init__.py:4-12 -/
noncomputable def Boolf.rootBoolf (f : Boolf) : Except Err Boolf :=
  if f.isRoot then .ok f
  else newFullspots (f.fullspots.map Int.ofNat) (some ((List.range f.valency).map Int.ofNat))

/-- boolf/metributes/spread_vector/__init__.py:4-7 -/
def Boolf.spreadVector (f : Boolf) : Except Err (List Int) :=
  (List.range f.valency).mapM fun i => do return ((← item f.atomvals i) : Int) - (i : Int)

/-- boolf/methods/inflated_fullspots/__init__.py:6-10 for a set, list or tuple -/
def Boolf.inflatedFullspots (f : Boolf) (atomvals : List Int) : Except Err (List Nat) := do
  return (← f.tt (.atoms atomvals)).exposet

/-! ### splits -/

/-- boolf/a/spotints_to_splits/__init__.py:6-19 -/
def spotintsToSplits (spotints : List Nat) (valency : Nat) : Except Err (List (List Nat × List Nat)) := do
  let binv ← BV.mk { exposet := some (spotints.map Int.ofNat), length := some ((2 ^ valency : Nat) : Int) }
  (List.range valency).mapM fun atomkey : Nat => do
    let recto ← binv.and (← makeAtompattern atomkey valency)
    let verso ← binv.and (← makeAtompattern (inv atomkey) valency)
    return (recto.exposet, verso.exposet)

/-- `a.intersection(b)` -/
def inter (a b : List Nat) : List Nat := a.filter (b.contains ·)

/-- `bool(a)` for a set -/
def nonEmpty (a : List Nat) : Bool := decide (a ≠ [])

/-- boolf/a/count_split_regions/__init__.py:1-9 -/
def countSplitRegions (split1 split2 : List Nat × List Nat) : Nat :=
  bsum [nonEmpty (inter split1.1 split2.1), nonEmpty (inter split1.1 split2.2),
    nonEmpty (inter split1.2 split2.1), nonEmpty (inter split1.2 split2.2)]

/-- boolf/metributes/_splits/splits/__init__.py:6-9 -/
def Boolf.splits (f : Boolf) : Except Err (List (List Nat × List Nat)) := spotintsToSplits f.fullspots f.valency

/-- boolf/metributes/_splits/splits_overlap_counts/__init__.py:8-15 -/
def Boolf.splitsOverlapCounts (f : Boolf) : Except Err (Dict (Nat × Nat) Nat) := do
  let splits ← f.splits
  return Dict.ofPairs (← (pairsBelow f.valency).mapM fun p : Nat × Nat => do
    return (p, countSplitRegions (← item splits p.1) (← item splits p.2)))

/-- boolf/metributes/_splits/split_pairs_with_3_overlaps/__init__.py:4-12 -/
def Boolf.splitPairsWith3Overlaps (f : Boolf) : Except Err (List (Nat × Nat)) := do
  return ((← f.splitsOverlapCounts).filter fun p => decide (p.2 = 3)).map Prod.fst

/-- boolf/metributes/_splits/splits_equal_and_onesided/__init__.py:72-73 -/
def isUni (split : List Nat × List Nat) : Bool := decide (bsum [nonEmpty split.1, nonEmpty split.2] = 1)

/-- boolf/metributes/_splits/splits_equal_and_onesided/__init__.py:58-77 for the remaining pairs; `equal` and `onesided` are
`equal_dict` and `onesided_list`.  (The indices are in the range of the list.) -/
def onesidedLoop (splits : List (List Nat × List Nat)) : List ((Nat × Nat) × Nat) → Dict (Nat × Nat) Bool → List Bool →
    Except Err (Dict (Nat × Nat) Bool × List Bool)
  | [], equal, onesided => .ok (equal, onesided)
  | ((index1, index2), count) :: rest, equal, onesided =>
    if count = 1 then
      onesidedLoop splits rest (equal.set (index1, index2) true) ((onesided.set index1 true).set index2 true)
    else if count = 2 then
      match item splits index1, item splits index2 with
      | .ok split1, .ok split2 =>
        let uni1 := isUni split1
        let uni2 := isUni split2
        onesidedLoop splits rest (equal.set (index1, index2) (!uni1 && !uni2)) ((onesided.set index1 uni1).set index2 uni2)
      | .error e, _ => .error e
      | _, .error e => .error e
    else onesidedLoop splits rest (equal.set (index1, index2) false) onesided

/-- boolf/metributes/_splits/splits_equal_and_onesided/__init__.py:45-79 -/
def Boolf.splitsEqualAndOnesided (f : Boolf) : Except Err (Dict (Nat × Nat) Bool × List Bool) :=
  if f.valency = 0 then .ok ([], [])
  else if f.valency = 1 then .ok ([], [true])
  else do onesidedLoop (← f.splits) (← f.splitsOverlapCounts) [] (List.replicate f.valency false)

/-- boolf/metributes/_splits/splits_equal_and_onesided/__init__.py:15-21 -/
def Boolf.splitsEqual (f : Boolf) : Except Err (Dict (Nat × Nat) Bool) := do return (← f.splitsEqualAndOnesided).1

/-- boolf/metributes/_splits/splits_equal_and_onesided/__init__.py:35-41 -/
def Boolf.splitsOnesided (f : Boolf) : Except Err (List Bool) := do return (← f.splitsEqualAndOnesided).2

/-- boolf/metributes/onesided_atomkeys/__init__.py:4-12 -/
def Boolf.onesidedAtomkeys (f : Boolf) : Except Err (List Nat) := do
  return ((← f.splitsOnesided).zipIdx.filter Prod.fst).map Prod.snd

/-- boolf/metributes/onesided_is_universe/__init__.py:4-12 -/
def Boolf.onesidedIsUniverse (f : Boolf) : Except Err (Dict Nat Bool) := do
  let splits ← f.splits
  return Dict.ofPairs (← (← f.onesidedAtomkeys).mapM fun atomkey : Nat => do
    return (atomkey, decide ((← item splits atomkey).1.length > 0)))

/-! ### bloat and blot -/

/-- the statement after a call that changes the object -/
def ret (r : Except Err Unit × SetPartComp) : Except Err SetPartComp :=
  match r with
  | (.ok _, s) => .ok s
  | (.error e, _) => .error e

/-- boolf/metributes/_blight/bloat/__init__.py:11-16 for the remaining items -/
def bloatLoop (splits : List (List Nat × List Nat)) : List ((Nat × Nat) × Bool) → SetPartComp → Except Err SetPartComp
  | [], s => .ok s
  | ((a, b), splitsAreEqual) :: rest, s =>
    if splitsAreEqual then do
      let s ← ret (if (← item splits a) = (← item splits b) then s.setEqual a b else s.setComp a b)
      bloatLoop splits rest s
    else bloatLoop splits rest s

/-- boolf/metributes/_blight/bloat/__init__.py:6-18 -/
def Boolf.bloat (f : Boolf) : Except Err SetPartComp := do
  bloatLoop (← f.splits) (← f.splitsEqual) (← SPC.new none none)

/-- boolf/metributes/_blight/blot/__init__.py:11-16, and boolf/metributes/_blight/blight/__init__.py:11-16, for the remaining atomkeys -/
def blotLoop (splits : List (List Nat × List Nat)) : List Nat → SetPartComp → Except Err SetPartComp
  | [], s => .ok s
  | atomkey :: rest, s => do
    let s ← ret (if (← item splits atomkey).1 = [] then s.setComp atomkey (-1) else s.setEqual atomkey (-1))
    blotLoop splits rest s

/-- boolf/metributes/_blight/blot/__init__.py:6-18 -/
def Boolf.blot (f : Boolf) : Except Err SetPartComp := do blotLoop (← f.splits) (← f.onesidedAtomkeys) (← SPC.new none none)

/-- boolf/metributes/_blight/blight/__init__.py:6-18 -/
def Boolf.blight (f : Boolf) : Except Err SetPartComp := do blotLoop (← f.splits) (← f.onesidedAtomkeys) (← f.bloat)

/-- boolf/metributes/_blight/is_bloatless/__init__.py:4-9 -/
def Boolf.isBloatless (f : Boolf) : Except Err Bool := do (← f.bloat).eq (← SPC.new none none)

/-- boolf/metributes/_blight/is_blotless/__init__.py:4-7 -/
def Boolf.isBlotless (f : Boolf) : Except Err Bool := do return decide ((← f.onesidedAtomkeys).length = 0)

/-- boolf/metributes/_blight/is_blightless/__init__.py:4-7 -/
def Boolf.isBlightless (f : Boolf) : Except Err Bool := do
  if (← f.isBloatless) then f.isBlotless else return false

/-- set_part_comp/methods/boolf/__init__.py:6-8 and 9-10: the pairs, each with the truth table -/
def pairTables (s : SetPartComp) : List (Int × Int × List Char) :=
  (s.equalPart.blocks.flatMap fun block => (block.zip block.tail).map fun p => (p.1, p.2, ['1', '0', '0', '1'])) ++
    s.compPairs.map fun p => (p.1, p.2, ['0', '1', '1', '0'])

/-- set_part_comp/methods/boolf/__init__.py:8 and 10 for the remaining pairs -/
noncomputable def pairLoop : List (Int × Int × List Char) → Boolf → Except Err Boolf
  | [], g => .ok g
  | (a, b, tt) :: rest, g => do pairLoop rest (← g.and (← newTT (.str tt) (some [a, b])))

/-- set_part_comp/methods/boolf/__init__.py:1-11 -/
noncomputable def compBoolf (s : SetPartComp) : Except Err Boolf := do pairLoop (pairTables s) (← newTT (.bool true))

/-- boolf/metributes/_blight/bloat_boolf/__init__.py:8-15 -/
noncomputable def Boolf.bloatBoolf (f : Boolf) : Except Err Boolf := do
  let withPlaces ← compBoolf (← f.bloat)
  let atomvals ← withPlaces.atomvals.mapM fun k : Nat => item f.atomvals k
  newTT (.binv withPlaces.root) (some (atomvals.map Int.ofNat))

/-- boolf/metributes/_blight/blot_boolf/__init__.py:15-19 for the remaining atomkeys -/
noncomputable def blotBoolfLoop (f : Boolf) (isUniverse : Dict Nat Bool) : List Nat → Boolf → Except Err Boolf
  | [], g => .ok g
  | atomkey :: rest, g =>
    match isUniverse.get? atomkey with
    | none => .error .keyError
    | some isUni => do
      let atomval ← item f.atomvals atomkey
      let h ← newTT (.str (if isUni then ['0', '1'] else ['1', '0'])) (some [(atomval : Int)])
      blotBoolfLoop f isUniverse rest (← g.and h)

/-- boolf/metributes/_blight/blot_boolf/__init__.py:8-21 -/
noncomputable def Boolf.blotBoolf (f : Boolf) : Except Err Boolf := do
  blotBoolfLoop f (← f.onesidedIsUniverse) (← f.onesidedAtomkeys) (← newTT (.bool true))

/-- boolf/metributes/_blight/blight_boolf/__init__.py:4-9 -/
noncomputable def Boolf.blightBoolf (f : Boolf) : Except Err Boolf := do (← f.bloatBoolf).and (← f.blotBoolf)

/-! ### bloatless and blightless -/

/-- `min(l)` of a non-empty set -/
def minNat (l : List Nat) : Nat := l.foldl min (l.headD 0)

/-- boolf/metributes/_splits/splits_eq_blocks_and_pref_side/__init__.py:66-92 for one block -/
def preferredSide (splits : List (List Nat × List Nat)) (bloat : SetPartComp) (block : List Int) : Except Err (Option Int) :=
  if block.length = 1 then .ok none
  else match block.head? with
    | none => .error .indexError
    | some recto =>
      match bloat.getComp recto with
      | none => .ok none
      | some verso => do
        let split ← item splits recto.toNat
        let preferRecto :=
          if split.1 = [] ∨ split.2 = [] then decide (split.2 = []) else decide (minNat split.1 < minNat split.2)
        return some (if preferRecto then recto else verso)

/-- boolf/metributes/_splits/splits_eq_blocks_and_pref_side/__init__.py:98-103 for one block -/
def representativeAtomkey (block : List Int) (preferred : Option Int) : Except Err Int :=
  match preferred with
  | some atomkey => .ok atomkey
  | none => match block.head? with
    | some atomkey => .ok atomkey
    | none => .error .indexError

/-- The second list of a/sort_together/__init__.py:6-15 for two lists of the same length, when the first one has no entry twice
(so that entries of the second one are never compared).  For empty lists the result `()` cannot be unpacked into two variables. -/
def sortByKeys {α : Type} (keys : List Int) (l : List α) : Except Err (List α) :=
  if keys = [] then .error .valueError
  else .ok (((keys.zip l).insertionSort (fun p q => p.1 ≤ q.1)).map Prod.snd)

/-- boolf/metributes/_splits/splits_eq_blocks_and_pref_side/__init__.py:54-58 -/
def Boolf.equalityPartition (f : Boolf) : Except Err (List (List Int)) := do
  let pairs := ((← f.splitsEqual).filter Prod.snd).map fun p => ((p.1.1 : Int), (p.1.2 : Int))
  let part : SetPart Unit ← mergeAll (newPart []) pairs
  part.blocksWithSingletons { length := some f.valency }

/-- boolf/metributes/_splits/splits_eq_blocks_and_pref_side/__init__.py:47-109 -/
def Boolf.eqBlocksAndPrefSide (f : Boolf) : Except Err (List (List Int) × List (Option Int)) :=
  if f.isConstant then .ok ([], [])
  else do
    let blocks ← f.equalityPartition
    let splits ← f.splits
    let bloat ← f.bloat
    let preferred ← blocks.mapM fun block : List Int => preferredSide splits bloat block
    let keys ← (blocks.zip preferred).mapM fun p : List Int × Option Int => representativeAtomkey p.1 p.2
    return (← sortByKeys keys blocks, ← sortByKeys keys preferred)

/-- boolf/metributes/_splits/number_of_distinct_splits/__init__.py:4-7 -/
def Boolf.numberOfDistinctSplits (f : Boolf) : Except Err Nat := do return (← f.eqBlocksAndPrefSide).1.length

/-- boolf/metributes/_blight/bloatless_atomkeys_undeflated/__init__.py:6-19 -/
def Boolf.bloatlessAtomkeysUndeflated (f : Boolf) : Except Err (List Int) := do
  let (blocks, preferred) ← f.eqBlocksAndPrefSide
  let bloat ← f.bloat
  blocks.zipIdx.mapM fun p : List Int × Nat => do
    match (← item preferred p.2) with
    | some pref => return bloat.getRepr pref
    | none => return minOf p.1

/-- boolf/methods/bloatless_spotint/__init__.py:24-27 -/
def majorToMinor (blocks : List (List Int)) : Dict Int Nat :=
  Dict.ofPairs (blocks.zipIdx.flatMap fun p => p.1.map fun element => (element, p.2))

/-- boolf/methods/bloatless_spotint/__init__.py:34-40 for the remaining major places.  The set `minor_places_to_do` never changes. -/
def minorLoop (major : Binv) (preferred : List (Option Int)) (mapDict : Dict Int Nat) (toDo : List Nat) :
    List Nat → List Nat → Except Err (List Nat)
  | [], exposet => .ok exposet
  | majorPlace :: rest, exposet =>
    match mapDict.get? majorPlace with
    | none => .error .keyError
    | some minorPlace =>
      if toDo.contains minorPlace then do
        let used := match (← item preferred minorPlace) with
          | some pref => pref.toNat
          | none => majorPlace
        if (← major.getItem used) then minorLoop major preferred mapDict toDo rest (exposet ++ [minorPlace])
        else minorLoop major preferred mapDict toDo rest exposet
      else minorLoop major preferred mapDict toDo rest exposet

/-- boolf/methods/bloatless_spotint/__init__.py:13-42 for a natural number -/
def Boolf.bloatlessSpotint (f : Boolf) (spotint : Nat) : Except Err Nat :=
  if f.isConstant then do return (← f.root.getItem 0).toNat
  else if spotint < 2 ^ f.valency then do
    let major ← BV.mk { intval := some (spotint : Int), length := some (f.valency : Int) }
    if (← (← f.bloat).intMatches spotint) then
      let (blocks, preferred) ← f.eqBlocksAndPrefSide
      let minor ← minorLoop major preferred (majorToMinor blocks) (List.range (← f.numberOfDistinctSplits)) (List.range major.length) []
      return (← BV.mk { exposet := some (minor.dedup.map Int.ofNat) }).intval
    else .error .bloatMismatch
  else .error .tooBig

/-- boolf/metributes/_blight/bloatless_boolf/__init__.py:4-20 -/
noncomputable def Boolf.bloatlessBoolf (f : Boolf) : Except Err Boolf :=
  if f.isConstant then .ok f
  else do
    if (← f.bloatBoolf).eq f then newTT (.str ['1'])
    else
      let minorFullspots ← f.root.exposet.mapM fun spotint : Nat => f.bloatlessSpotint spotint
      let minorBinv ← BV.mk { exposet := some (minorFullspots.dedup.map Int.ofNat), length := some ((2 ^ (← f.numberOfDistinctSplits) : Nat) : Int) }
      let minorAtomvals ← (← f.bloatlessAtomkeysUndeflated).mapM fun k : Int => item f.atomvals k.toNat
      newTT (.binv minorBinv) (some (minorAtomvals.map Int.ofNat))

/-- boolf/metributes/_blight/bloatless_atomkeys_deflated/__init__.py:4-10 -/
noncomputable def Boolf.bloatlessAtomkeysDeflated (f : Boolf) : Except Err (List Nat) := do
  let bloatlessAtomvals := (← f.bloatlessBoolf).atomvals
  return (f.atomvals.zipIdx.filter fun p => bloatlessAtomvals.contains p.1).map Prod.snd

/-- boolf/metributes/_blight/blightless_atomkeys/__init__.py:4-12 -/
noncomputable def Boolf.blightlessAtomkeys (f : Boolf) : Except Err (List Nat) := do
  let deflated ← f.bloatlessAtomkeysDeflated
  let onesided ← f.onesidedAtomkeys
  return sorted (deflated.dedup.filter fun k => !onesided.contains k)

/-- boolf/metributes/_blight/blightless_boolf/__init__.py:4-14 -/
noncomputable def Boolf.blightlessBoolf (f : Boolf) : Except Err Boolf :=
  if f.isConstant then .ok f
  else do
    if (← f.blightBoolf).eq f then newTT (.str ['1'])
    else
      let atomvals ← (← f.blightlessAtomkeys).mapM fun k : Nat => item f.atomvals k
      (← f.bloatlessBoolf).filtratedBoolf (atomvals.map Int.ofNat)

/-- boolf/methods/blightless_spotint/__init__.py:15-26 for the remaining atomkeys with their truth values -/
def blightlessLoop (blightlessAtomkeys onesidedAtomkeys : List Nat) (blight : SetPartComp) :
    List (Int × Bool) → List Bool → Except Err (List Bool)
  | [], vector => .ok vector
  | (atomkey, truthValue) :: rest, vector =>
    if (blightlessAtomkeys.map Int.ofNat).contains atomkey then
      blightlessLoop blightlessAtomkeys onesidedAtomkeys blight rest (vector ++ [truthValue])
    else if (onesidedAtomkeys.map Int.ofNat).contains atomkey then
      if blight.areEqual (-1) atomkey = truthValue then
        blightlessLoop blightlessAtomkeys onesidedAtomkeys blight rest vector
      else .error .blightMismatch
    else blightlessLoop blightlessAtomkeys onesidedAtomkeys blight rest vector

/-- boolf/methods/blightless_spotint/__init__.py:8-28 -/
noncomputable def Boolf.blightlessSpotint (f : Boolf) (spotint : Nat) : Except Err Nat := do
  let bloatlessSpotint ← f.bloatlessSpotint spotint
  let atomkeys ← f.bloatlessAtomkeysUndeflated
  let bloatlessVector := (← BV.mk { intval := some (bloatlessSpotint : Int), length := some (atomkeys.length : Int) }).vector
  let vector ← blightlessLoop (← f.blightlessAtomkeys) (← f.onesidedAtomkeys) (← f.blight) (atomkeys.zip bloatlessVector) []
  return (← ofBools vector).intval

/-- boolf/methods/splits_combined/__init__.py:11-14 for the remaining atomkeys -/
def combineLoop (splits : List (List Nat × List Nat)) : List Nat → SetPart Unit → Except Err (SetPart Unit)
  | [], part => .ok part
  | atomkey :: rest, part => do
    let split ← item splits atomkey
    combineLoop splits rest (← part.meet (← newPart [split.1.map Int.ofNat, split.2.map Int.ofNat]))

/-- boolf/methods/splits_combined/__init__.py:4-16 for natural atomkeys -/
def Boolf.splitsCombined (f : Boolf) : List Nat → Except Err (List (List Int))
  | [] => .ok []
  | atomkey :: rest => do
    let splits ← f.splits
    let split ← item splits atomkey
    let part ← newPart [split.1.map Int.ofNat, split.2.map Int.ofNat]
    (← combineLoop splits rest part).blocksWithSingletons { elements := some (f.fullspots.map Int.ofNat) }

end Verif.BF
