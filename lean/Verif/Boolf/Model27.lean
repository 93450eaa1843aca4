import Verif.Boolf.Model9

/-!
# Model of `Boolf` (boolf/), part 27: attributes that are computed when they are read for the first time

The metributes listed in boolf/__init__.py:71-81 do not use `cached_property`.  A hidden variable holds the value, or `None` (here `none`).
-/

namespace Verif.BF
open Verif.Py Verif.BV Verif.P Verif.W Verif.SP
open Verif.SPC (SetPartComp)
open Verif.A hiding Mat

/-- The hidden variables of an object, set to `None` in boolf/__init__.py:69-90.  (Those of the attributes that are never stored are left out.)
`bloat` and `onesidedAtomkeys` are the entries that `cached_property` makes in the dictionary of the object. -/
structure Lazy where
  layeredTT : Option (List (List Nat)) := none
  layeredWeight : Option (List Nat) := none
  splitsEqual : Option (Dict (Nat × Nat) Bool) := none
  splitsOnesided : Option (List Bool) := none
  equalityBlocks : Option (List (List Int)) := none
  preferredSides : Option (List (Option Int)) := none
  byWeight : Option (Dict Nat (Dict Nat (List Nat))) := none
  layeredFullspots : Option (List (List Nat)) := none
  weights : Option (List Nat) := none
  links : Option (Dict Nat (List (Nat × Nat))) := none
  linkCount : Option Nat := none
  spectra : Option (List (List Int × List Int)) := none
  spectraAbs : Option (List (List Int × List Int)) := none
  spectraLayered : Option (List (List (List Int) × List (List Int))) := none
  spectraLayeredAbs : Option (List (List (List Int) × List (List Int))) := none
  bloat : Option SetPartComp := none
  onesidedAtomkeys : Option (List Nat) := none

/-- A piece of code that reads and sets hidden variables.  What was set before an exception stays. -/
def Read (α : Type) : Type := Lazy → Except Err α × Lazy

instance : Monad Read where
  pure a := fun s => (.ok a, s)
  bind x g := fun s => match x s with
    | (.ok a, s) => g a s
    | (.error e, s) => (.error e, s)

/-- code that does not touch the hidden variables -/
def lift {α : Type} (x : Except Err α) : Read α := fun s => (x, s)

/-- `self.x = val` -/
def store (h : Lazy → Lazy) : Read Unit := fun s => (.ok (), h s)

/-- A getter like boolf/metributes/_layered/__init__.py:17-22: the function that sets the variables is called, and then the attribute is read again.
(If it were still `None`, this would not end.) -/
def getter {α : Type} (field : Lazy → Option α) (magic : Read Unit) : Read α := fun s =>
  match field s with
  | some val => (.ok val, s)
  | none => match magic s with
    | (.ok _, s) => match field s with
      | some val => (.ok val, s)
      | none => (.error .diverges, s)
    | (.error e, s) => (.error e, s)

/-- A getter like boolf/metributes/_fissions/fission_walsh_spectra/__init__.py:18-22, which returns a part of the result of `work` -/
def workGetter {α : Type} (field : Lazy → Option α) (work : Read α) : Read α := fun s =>
  match field s with
  | some val => (.ok val, s)
  | none => work s

/-- `functools.cached_property` -/
def cached {α : Type} (field : Lazy → Option α) (set : α → Lazy → Lazy) (compute : Read α) : Read α := fun s =>
  match field s with
  | some val => (.ok val, s)
  | none => match compute s with
    | (.ok val, s) => (.ok val, set val s)
    | (.error e, s) => (.error e, s)

/-! ## layers -/

/-- boolf/metributes/_layered/__init__.py:45-49; in line 49 the attribute is read again -/
def layeredMagic (f : Boolf) : Read Unit := do
  let layers ← lift (flatToLayered (f.root.vector.map Bool.toNat))
  store fun s => { s with layeredTT := some layers }
  let layers ← getter Lazy.layeredTT (lift (.error .diverges))
  store fun s => { s with layeredWeight := some (layers.map List.sum) }

/-- boolf/metributes/_layered/__init__.py:16-22 -/
def readLayeredTT (f : Boolf) : Read (List (List Nat)) := getter Lazy.layeredTT (layeredMagic f)

/-- boolf/metributes/_layered/__init__.py:36-42 -/
def readLayeredWeight (f : Boolf) : Read (List Nat) := getter Lazy.layeredWeight (layeredMagic f)

/-! ## full spots by weight -/

/-- boolf/metributes/_basics/fullspots_by_weight/__init__.py:67-86 -/
def weightMagic (f : Boolf) : Read Unit := do
  let atoms ← lift f.fullspotAtoms
  let detailed := (weightLoop atoms [] []).1
  let simple := (weightLoop atoms [] []).2
  store fun s => { s with byWeight := some detailed }
  store fun s => { s with layeredFullspots := some ((List.range (f.valency + 1)).map fun weight => ((simple.get? weight).getD []).insertionSort (· ≤ ·)) }
  store fun s => { s with weights := some (detailed.keys.insertionSort (· ≤ ·)) }

/-- boolf/metributes/_basics/fullspots_by_weight/__init__.py:17-23 -/
def readByWeight (f : Boolf) : Read (Dict Nat (Dict Nat (List Nat))) := getter Lazy.byWeight (weightMagic f)

/-- boolf/metributes/_basics/fullspots_by_weight/__init__.py:37-43 -/
def readLayeredFullspots (f : Boolf) : Read (List (List Nat)) := getter Lazy.layeredFullspots (weightMagic f)

/-- boolf/metributes/_basics/fullspots_by_weight/__init__.py:57-63 -/
def readWeights (f : Boolf) : Read (List Nat) := getter Lazy.weights (weightMagic f)

/-- boolf/metributes/_basics/fullspotlinks_by_weight/__init__.py:47-80; the attribute `fullspots_by_weight` is read once, before the loop -/
def linksMagic (f : Boolf) : Read Unit := do
  let weights ← readWeights f
  let byWeight ← readByWeight f
  let result ← lift (linksLoop weights byWeight (List.range (weights.length - 1)) [] 0)
  store fun s => { s with links := some result.1 }
  store fun s => { s with linkCount := some result.2 }

/-- boolf/metributes/_basics/fullspotlinks_by_weight/__init__.py:17-23 -/
def readLinks (f : Boolf) : Read (Dict Nat (List (Nat × Nat))) := getter Lazy.links (linksMagic f)

/-- boolf/metributes/_basics/fullspotlinks_by_weight/__init__.py:37-43 -/
def readLinkCount (f : Boolf) : Read Nat := getter Lazy.linkCount (linksMagic f)

/-! ## splits -/

/-- boolf/metributes/_splits/splits_equal_and_onesided/__init__.py:45-79 -/
def splitsMagic (f : Boolf) : Read Unit :=
  if f.valency = 0 then do
    store fun s => { s with splitsEqual := some [] }
    store fun s => { s with splitsOnesided := some [] }
  else if f.valency = 1 then do
    store fun s => { s with splitsEqual := some [] }
    store fun s => { s with splitsOnesided := some [true] }
  else do
    let splits ← lift f.splits
    let counts ← lift f.splitsOverlapCounts
    let result ← lift (onesidedLoop splits counts [] (List.replicate f.valency false))
    store fun s => { s with splitsEqual := some result.1 }
    store fun s => { s with splitsOnesided := some result.2 }

/-- boolf/metributes/_splits/splits_equal_and_onesided/__init__.py:15-21 -/
def readSplitsEqual (f : Boolf) : Read (Dict (Nat × Nat) Bool) := getter Lazy.splitsEqual (splitsMagic f)

/-- boolf/metributes/_splits/splits_equal_and_onesided/__init__.py:35-41 -/
def readSplitsOnesided (f : Boolf) : Read (List Bool) := getter Lazy.splitsOnesided (splitsMagic f)

/-- boolf/metributes/onesided_atomkeys/__init__.py:4-12 -/
def readOnesidedAtomkeys (f : Boolf) : Read (List Nat) :=
  cached Lazy.onesidedAtomkeys (fun v s => { s with onesidedAtomkeys := some v }) do
    let onesided ← readSplitsOnesided f
    return (onesided.zipIdx.filter Prod.fst).map Prod.snd

/-- boolf/metributes/_blight/bloat/__init__.py:6-18 -/
def readBloat (f : Boolf) : Read SetPartComp :=
  cached Lazy.bloat (fun v s => { s with bloat := some v }) do
    let splits ← lift f.splits
    let equal ← readSplitsEqual f
    lift (do bloatLoop splits equal (← SPC.new none none))

/-- boolf/metributes/_splits/splits_eq_blocks_and_pref_side/__init__.py:47-109; the attribute `bloat` is read once, also when no block asks for it -/
def blocksMagic (f : Boolf) : Read Unit :=
  if f.isConstant then do
    store fun s => { s with equalityBlocks := some [] }
    store fun s => { s with preferredSides := some [] }
  else do
    let equal ← readSplitsEqual f
    let blocks ← lift (do
      let part : SetPart Unit ← mergeAll (newPart []) ((equal.filter Prod.snd).map fun p => ((p.1.1 : Int), (p.1.2 : Int)))
      part.blocksWithSingletons { length := some f.valency })
    let splits ← lift f.splits
    let bloat ← readBloat f
    let preferred ← lift (blocks.mapM fun block : List Int => preferredSide splits bloat block)
    let keys ← lift ((blocks.zip preferred).mapM fun p : List Int × Option Int => representativeAtomkey p.1 p.2)
    let blocks ← lift (sortByKeys keys blocks)
    let preferred ← lift (sortByKeys keys preferred)
    store fun s => { s with equalityBlocks := some blocks }
    store fun s => { s with preferredSides := some preferred }

/-- boolf/metributes/_splits/splits_eq_blocks_and_pref_side/__init__.py:17-23 -/
def readEqualityBlocks (f : Boolf) : Read (List (List Int)) := getter Lazy.equalityBlocks (blocksMagic f)

/-- boolf/metributes/_splits/splits_eq_blocks_and_pref_side/__init__.py:37-43 -/
def readPreferredSides (f : Boolf) : Read (List (Option Int)) := getter Lazy.preferredSides (blocksMagic f)

/-! ## fissions -/

/-- boolf/metributes/_fissions/fissions/work.py:5-25; nothing is stored -/
def fissionsWork (f : Boolf) : Read (List (Binv × Binv) × List (List (List Int) × List (List Int))) := do
  let main ← lift f.fissions
  let layered ← lift (main.mapM fun p : Binv × Binv => do return (← flatToLayered (ints p.1), ← flatToLayered (ints p.2)))
  return (main, layered)

/-- boolf/metributes/_fissions/fissions/__init__.py:16-21 -/
def readFissions (f : Boolf) : Read (List (Binv × Binv)) := workGetter (fun _ => none) (do return (← fissionsWork f).1)

/-- boolf/metributes/_fissions/fissions/__init__.py:35-40 -/
def readFissionsLayered (f : Boolf) : Read (List (List (List Int) × List (List Int))) := workGetter (fun _ => none) (do return (← fissionsWork f).2)

/-- boolf/metributes/_fissions/fissions_weight/work.py:1-15; nothing is stored -/
def weightWork (f : Boolf) : Read (List (Int × Int) × List (List Int × List Int)) := do
  let layered ← readFissionsLayered f
  let layers := layered.map fun p => (p.1.map List.sum, p.2.map List.sum)
  return (layers.map fun p => (p.1.sum, p.2.sum), layers)

/-- boolf/metributes/_fissions/fissions_weight/__init__.py:16-21 -/
def readFissionsWeight (f : Boolf) : Read (List (Int × Int)) := workGetter (fun _ => none) (do return (← weightWork f).1)

/-- boolf/metributes/_fissions/fissions_weight/__init__.py:35-40 -/
def readFissionsWeightLayered (f : Boolf) : Read (List (List Int × List Int)) := workGetter (fun _ => none) (do return (← weightWork f).2)

/-- the four results of boolf/metributes/_fissions/fission_walsh_spectra/work.py:39 -/
structure Spectra where
  flat : List (List Int × List Int)
  flatAbs : List (List Int × List Int)
  layered : List (List (List Int) × List (List Int))
  layeredAbs : List (List (List Int) × List (List Int))

/-- boolf/metributes/_fissions/fission_walsh_spectra/work.py:6-39 -/
def spectraWork (f : Boolf) : Read Spectra := do
  let fissions ← readFissions f
  let flat := fissions.map fun p => (fwht (ints p.1), fwht (ints p.2))
  let flatAbs := flat.map fun p => (absAll p.1, absAll p.2)
  let layered ← lift (flat.mapM fun p : List Int × List Int => do return (← flatToLayered p.1, ← flatToLayered p.2))
  let layeredAbs ← lift (flatAbs.mapM fun p : List Int × List Int => do return (← flatToLayered p.1, ← flatToLayered p.2))
  store fun s => { s with spectra := some flat }
  store fun s => { s with spectraAbs := some flatAbs }
  store fun s => { s with spectraLayered := some layered }
  store fun s => { s with spectraLayeredAbs := some layeredAbs }
  return ⟨flat, flatAbs, layered, layeredAbs⟩

/-- boolf/metributes/_fissions/fission_walsh_spectra/__init__.py:17-22 -/
def readSpectra (f : Boolf) : Read (List (List Int × List Int)) := workGetter Lazy.spectra (do return (← spectraWork f).flat)

/-- boolf/metributes/_fissions/fission_walsh_spectra/__init__.py:37-42 -/
def readSpectraAbs (f : Boolf) : Read (List (List Int × List Int)) := workGetter Lazy.spectraAbs (do return (← spectraWork f).flatAbs)

/-- boolf/metributes/_fissions/fission_walsh_spectra/__init__.py:57-62 -/
def readSpectraLayered (f : Boolf) : Read (List (List (List Int) × List (List Int))) :=
  workGetter Lazy.spectraLayered (do return (← spectraWork f).layered)

/-- boolf/metributes/_fissions/fission_walsh_spectra/__init__.py:77-82 -/
def readSpectraLayeredAbs (f : Boolf) : Read (List (List (List Int) × List (List Int))) :=
  workGetter Lazy.spectraLayeredAbs (do return (← spectraWork f).layeredAbs)

/-- boolf/metributes/_fissions/fission_walsh_spectra_zipped/work.py:4-24 for the remaining values of `i`; each of them reads the attribute again -/
def zippedLoop (f : Boolf) (atompatterns : List Binv) : List Nat → Read (List (List Int))
  | [] => pure []
  | i :: rest => do
    let spectra ← readSpectra f
    let zipped ← lift (match atompatterns[i]?, spectra[i]? with
      | some atompattern, some (a, b) => vectorZipTogether [a, b] (atompattern.vector.map Bool.toNat)
      | _, _ => .error .indexError)
    let rest ← zippedLoop f atompatterns rest
    return zipped :: rest

/-- boolf/metributes/_fissions/fission_walsh_spectra_zipped/work.py:4-24; nothing is stored -/
def zippedWork (f : Boolf) : Read (List (List Int) × List (List Int)) := do
  let atompatterns ← lift (makeAtompatterns f.adicity)
  let signed ← zippedLoop f atompatterns (List.range f.adicity)
  return (signed, signed.map absAll)

/-- boolf/metributes/_fissions/fission_walsh_spectra_zipped/__init__.py:16-21 -/
def readZipped (f : Boolf) : Read (List (List Int)) := workGetter (fun _ => none) (do return (← zippedWork f).1)

/-- boolf/metributes/_fissions/fission_walsh_spectra_zipped/__init__.py:35-40 -/
def readAbsZipped (f : Boolf) : Read (List (List Int)) := workGetter (fun _ => none) (do return (← zippedWork f).2)

/-! ## histories of reads -/

/-- the attributes -/
inductive Attr
  | layeredTT | layeredWeight | byWeight | layeredFullspots | weights | links | linkCount | splitsEqual | splitsOnesided | onesidedAtomkeys | bloat
  | equalityBlocks | preferredSides | fissions | fissionsLayered | fissionsWeight | fissionsWeightLayered | spectra | spectraAbs | spectraLayered
  | spectraLayeredAbs | zipped | absZipped
  deriving DecidableEq

/-- the type of the values of an attribute -/
def Attr.Val : Attr → Type
  | .layeredTT => List (List Nat)
  | .layeredWeight => List Nat
  | .byWeight => Dict Nat (Dict Nat (List Nat))
  | .layeredFullspots => List (List Nat)
  | .weights => List Nat
  | .links => Dict Nat (List (Nat × Nat))
  | .linkCount => Nat
  | .splitsEqual => Dict (Nat × Nat) Bool
  | .splitsOnesided => List Bool
  | .onesidedAtomkeys => List Nat
  | .bloat => SetPartComp
  | .equalityBlocks => List (List Int)
  | .preferredSides => List (Option Int)
  | .fissions => List (Binv × Binv)
  | .fissionsLayered => List (List (List Int) × List (List Int))
  | .fissionsWeight => List (Int × Int)
  | .fissionsWeightLayered => List (List Int × List Int)
  | .spectra => List (List Int × List Int)
  | .spectraAbs => List (List Int × List Int)
  | .spectraLayered => List (List (List Int) × List (List Int))
  | .spectraLayeredAbs => List (List (List Int) × List (List Int))
  | .zipped => List (List Int)
  | .absZipped => List (List Int)

/-- the attribute is read -/
def readAttr (f : Boolf) : (a : Attr) → Read a.Val
  | .layeredTT => readLayeredTT f
  | .layeredWeight => readLayeredWeight f
  | .byWeight => readByWeight f
  | .layeredFullspots => readLayeredFullspots f
  | .weights => readWeights f
  | .links => readLinks f
  | .linkCount => readLinkCount f
  | .splitsEqual => readSplitsEqual f
  | .splitsOnesided => readSplitsOnesided f
  | .onesidedAtomkeys => readOnesidedAtomkeys f
  | .bloat => readBloat f
  | .equalityBlocks => readEqualityBlocks f
  | .preferredSides => readPreferredSides f
  | .fissions => readFissions f
  | .fissionsLayered => readFissionsLayered f
  | .fissionsWeight => readFissionsWeight f
  | .fissionsWeightLayered => readFissionsWeightLayered f
  | .spectra => readSpectra f
  | .spectraAbs => readSpectraAbs f
  | .spectraLayered => readSpectraLayered f
  | .spectraLayeredAbs => readSpectraLayeredAbs f
  | .zipped => readZipped f
  | .absZipped => readAbsZipped f

/-- the attributes are read one after the other; exceptions are caught -/
def readAll (f : Boolf) : List Attr → Lazy → List (Σ a : Attr, Except Err a.Val)
  | [], _ => []
  | a :: rest, s => ⟨a, (readAttr f a s).1⟩ :: readAll f rest (readAttr f a s).2

end Verif.BF
