import Mathlib.Data.List.Lex
import Verif.Py.Basic

/-!
# Model of `SetPart` (set_part/)

Elements are integers.  (The code also allows other sortable elements, such as strings, in finite domains; of the
elements it uses only equality and order.)  Python sets are duplicate-free lists, and no theorem depends on their order.

A `SetPart` object is changed in place by its methods.  A method that changes the object is a function to the pair of its
outcome and the object afterwards, also when an exception is raised.

The attributes `pairs`, `intval`, `singletons` and `canonical_blocks_with_singletons` are `cached_property`s: the value of
the first access is stored in the object and never removed (`__init__` sets only the unrelated `_pairs` etc.).
So these stored values are part of the state (`Cache`).
-/

namespace Verif.SP
open Verif.Py

/-- `sorted(l)` for integers. -/
def sortZ (l : List Int) : List Int := l.insertionSort (· ≤ ·)

/-- `sorted(l)` for lists of integers (python compares lists lexicographically). -/
def sortL (l : List (List Int)) : List (List Int) := l.insertionSort (· ≤ ·)

/-- `set(l)` -/
def pySet {α : Type} [DecidableEq α] (l : List α) : List α := l.dedup

/-- `domain`: the letters `'N'` and `'Z'` or a finite set. -/
inductive Domain
  | N
  | Z
  | finite (s : List Int)
deriving DecidableEq, Repr

/-- `domain == other.domain`; finite sets are compared as sets. -/
def Domain.eq : Domain → Domain → Bool
  | .N, .N => true
  | .Z, .Z => true
  | .finite s, .finite t => s.all (t.contains ·) && t.all (s.contains ·)
  | _, _ => false

/-- The values stored by the cached properties.  `aliased` is not an attribute: it records that the lists in the stored
`canonical_blocks_with_singletons` are the same python objects as those in `blocks` (set_part/methods/blocks_with_singletons/__init__.py:47
puts them there without copying; they are separate again as soon as `__init__` has run). -/
structure Cache where
  pairs : Option (List (Int × Int)) := none
  intval : Option Nat := none
  singletons : Option (List Int) := none
  canonical : Option (List (List Int)) := none
  aliased : Bool := false
deriving DecidableEq, Repr

/-- A `SetPart` object with labels of type `L`; set_part/__init__.py:10-51.  `block_labels` is a `bidict`, given by its items. -/
structure SetPart (L : Type) where
  domain : Domain
  blocks : List (List Int)
  nonSingletonToBlockIndex : Dict Int Nat
  nonSingletons : List Int
  length : Option Int
  trivial : Bool
  blockLabels : Dict (List Int) L
  cache : Cache
deriving DecidableEq, Repr

variable {L : Type}

/-- set_part/__init__.py:22 -/
def cleanBlocks (blocks : List (List Int)) : List (List Int) :=
  sortL ((blocks.filter (fun block => decide (block.length > 1))).map sortZ)

/-- set_part/__init__.py:29-33 -/
def blockIndex (blocks : List (List Int)) : Dict Int Nat :=
  Dict.ofPairs (blocks.zipIdx.flatMap (fun p => p.1.map (fun element => (element, p.2))))

/-- `max(l)` of a non-empty list (0 for the empty one, which does not occur). -/
def maxZ : List Int → Int
  | [] => 0
  | x :: xs => xs.foldl max x

/-- set_part/__init__.py:63-73 (`set_trivial`) for an object whose `domain` is set. -/
def setTrivial (domain : Domain) (cache : Cache) : SetPart L where
  domain := domain
  blocks := []
  nonSingletonToBlockIndex := []
  nonSingletons := []
  length := if domain = .N then some 0 else none
  trivial := true
  blockLabels := []
  cache := cache

/-- The attributes set by set_part/__init__.py:27-51 from canonical `blocks` (without the check in lines 36-39). -/
def setBlocks (blocks : List (List Int)) (domain : Domain) (labels : Dict (List Int) L) (cache : Cache) : SetPart L where
  domain := domain
  blocks := blocks
  nonSingletonToBlockIndex := blockIndex blocks
  nonSingletons := (blockIndex blocks).keys
  length := if domain = .N then some (maxZ (blockIndex blocks).keys + 1) else none
  trivial := false
  blockLabels := labels
  cache := cache

/-- set_part/__init__.py:10-51 (`__init__`) on an object with stored values `cache` (none for a new one).
`labels` is a `bidict` or absent.  `blocks=None` behaves like `blocks=[]`.  The domain is one of the allowed ones. -/
def init (blocks : List (List Int)) (domain : Domain) (labels : Dict (List Int) L) (cache : Cache) :
    Except Err (SetPart L) :=
  let blocks := cleanBlocks blocks
  let cache := { cache with aliased := false }
  if blocks = [] then .ok (setTrivial domain cache)
  else
    let p := setBlocks blocks domain labels cache
    if p.nonSingletons.length = (p.blocks.map List.length).sum then .ok p
    else .error .duplicateElements

/-- `SetPart(blocks, domain)` -/
def newPart (blocks : List (List Int)) (domain : Domain := .N) : Except Err (SetPart L) := init blocks domain [] {}

/-- The last line of the changing methods, `self.__init__(self.blocks, self.domain, self.block_labels)`.
`DuplicateElementsError` cannot occur there (see the theorems); the state after it is not modelled exactly. -/
def reinit (p : SetPart L) : Except Err Unit × SetPart L :=
  match init p.blocks p.domain p.blockLabels p.cache with
  | .ok q => (.ok (), q)
  | .error e => (.error e, p)

/-- set_part/__init__.py:82-84 -/
def SetPart.eq (p q : SetPart L) : Except Err Bool :=
  if p.domain.eq q.domain then .ok (decide (p.blocks = q.blocks)) else .error .domainsNotEqual

/-- set_part/__init__.py:99-103 -/
def SetPart.indexOrNone (p : SetPart L) (element : Int) : Option Nat :=
  if p.nonSingletons.contains element then p.nonSingletonToBlockIndex.get? element else none

/-- set_part/__init__.py:105-108 -/
def SetPart.pairInSameBlock (p : SetPart L) (a b : Int) : Bool :=
  if ! (p.nonSingletons.contains a && p.nonSingletons.contains b) then false
  else decide (p.nonSingletonToBlockIndex.get? a = p.nonSingletonToBlockIndex.get? b)

/-- set_part/__init__.py:110-114.  (The missing cases of the lookups, a `KeyError` or `IndexError`, do not occur.) -/
def SetPart.elementToBlock (p : SetPart L) (element : Int) : List Int :=
  if p.nonSingletons.contains element then
    ((p.nonSingletonToBlockIndex.get? element).bind (p.blocks[·]?)).getD []
  else [element]

/-- set_part/__init__.py:116-122, and a/is_natural/__init__.py:1-6, for an integer. -/
def SetPart.elementInDomain (p : SetPart L) (element : Int) : Bool :=
  match p.domain with
  | .N => decide (0 ≤ element)
  | .Z => true
  | .finite s => s.contains element

/-! ### blocks with singletons, cached properties -/

/-- python `range(low, high)` -/
def rangeZ (low high : Int) : List Int := (List.range (high - low).toNat).map (fun (i : Nat) => low + i)

/-- set_part/methods/blocks_with_singletons/__init__.py:45-47 -/
def SetPart.withSingletons (p : SetPart L) (elements : List Int) : List (List Int) :=
  let singletons := (pySet elements).filter (fun e => ! p.nonSingletons.contains e)
  sortL (p.blocks ++ singletons.map (fun e => [e]))

/-- The arguments of `blocks_with_singletons`, set_part/methods/blocks_with_singletons/__init__.py:8 (of the right types). -/
structure BwsArgs where
  length : Option Int := none
  rangePair : Option (Int × Int) := none
  elements : Option (List Int) := none

/-- `min(l)` / `max(l)`: `ValueError` for an empty set. -/
def pyMinMax : List Int → Except Err (Int × Int)
  | [] => .error .valueError
  | x :: xs => .ok (xs.foldl min x, xs.foldl max x)

/-- set_part/methods/blocks_with_singletons/__init__.py:8-47.  The type checks (lines 24, 32, 38) are not modelled. -/
def SetPart.blocksWithSingletons (p : SetPart L) (args : BwsArgs) : Except Err (List (List Int)) :=
  match args.length, args.rangePair, args.elements with
  | none, none, none =>
    match p.domain with
    | .N => .ok (p.withSingletons (rangeZ 0 (p.length.getD 0)))
    | .Z => match pyMinMax p.nonSingletons with
      | .ok (low, high) => .ok (p.withSingletons (rangeZ low (high + 1)))
      | .error e => .error e
    | .finite s => .ok (p.withSingletons s)
  | some length, none, none =>
    if p.domain ≠ .N then .error .lengthNotAllowed
    else if length < p.length.getD 0 then .error .lengthMismatch
    else .ok (p.withSingletons (rangeZ 0 length))
  | none, some (low, high), none =>
    if p.domain ≠ .Z then .error .rangeNotAllowed
    else match pyMinMax p.nonSingletons with
      | .ok (mn, mx) => if low ≤ mn ∧ high > mx then .ok (p.withSingletons (rangeZ low high)) else .error .rangeMismatch
      | .error e => .error e
  | none, none, some elements =>
    if p.nonSingletons.all (elements.contains ·) then .ok (p.withSingletons elements) else .error .elementsMismatch
  | _, _, _ => .error .tooManyArguments

/-- set_part/metributes/canonical_blocks_with_singletons/__init__.py:4-9, a `cached_property` -/
def SetPart.canonicalBlocksWithSingletons (p : SetPart L) : Except Err (List (List Int)) × SetPart L :=
  match p.cache.canonical with
  | some v => (.ok v, p)
  | none => match p.blocksWithSingletons {} with
    | .ok v => (.ok v, { p with cache := { p.cache with canonical := some v, aliased := true } })
    | .error e => (.error e, p)

/-- `itertools.combinations(l, 2)` -/
def combinations2 {α : Type} : List α → List (α × α)
  | [] => []
  | x :: xs => xs.map (fun y => (x, y)) ++ combinations2 xs

/-- set_part/metributes/pairs/__init__.py:9-14, the computation -/
def SetPart.computePairs (p : SetPart L) : List (Int × Int) := pySet (p.blocks.flatMap combinations2)

/-- set_part/metributes/pairs/__init__.py:6-14, a `cached_property` -/
def SetPart.pairs (p : SetPart L) : List (Int × Int) × SetPart L :=
  match p.cache.pairs with
  | some v => (v, p)
  | none => (p.computePairs, { p with cache := { p.cache with pairs := some p.computePairs } })

/-- set_part/metributes/intval/__init__.py:7-10 for given `pairs`.  For natural numbers; `2 ** exponent` with a negative exponent
is a floating-point number and not modelled. -/
def intvalOf (pairs : List (Int × Int)) : Nat :=
  pairs.foldl (fun result ab => result + 2 ^ ((ab.2.toNat ^ 2 - ab.2.toNat) / 2 + ab.1.toNat)) 0

/-- set_part/metributes/intval/__init__.py:4-12, a `cached_property` -/
def SetPart.intval (p : SetPart L) : Nat × SetPart L :=
  match p.cache.intval with
  | some v => (v, p)
  | none =>
    let (pairs, p) := p.pairs
    (intvalOf pairs, { p with cache := { p.cache with intval := some (intvalOf pairs) } })

/-- set_part/metributes/singletons/__init__.py:8-15, a `cached_property` -/
def SetPart.singletons (p : SetPart L) : Except Err (List Int) × SetPart L :=
  match p.cache.singletons with
  | some v => (.ok v, p)
  | none => match p.domain with
    | .finite s =>
      let v := (pySet s).filter (fun e => ! p.nonSingletons.contains e)
      (.ok v, { p with cache := { p.cache with singletons := some v } })
    | _ => (.error .domainNotFinite, p)

/-! ### labels -/

section labels
variable [DecidableEq L]

/-- `bidict.inverse[label]` -/
def labelInverse : Dict (List Int) L → L → Option (List Int)
  | [], _ => none
  | (k, v) :: d, label => if v = label then some k else labelInverse d label

/-- `bd[key] = label` for a `bidict`: an item with the same label under another key is a `ValueDuplicationError`
(or its subclass `KeyAndValueDuplicationError`). -/
def bidictSet (d : Dict (List Int) L) (key : List Int) (label : L) : Except Err (Dict (List Int) L) :=
  match labelInverse d label with
  | some k => if k = key then .ok d else .error .valueDuplication
  | none => .ok (d.set key label)

/-- set_part/methods/block_labels/__init__.py:46-50 -/
def SetPart.getLabelFromBlock (p : SetPart L) (block : List Int) : Option L := p.blockLabels.get? block

/-- set_part/methods/block_labels/__init__.py:53-55 -/
def SetPart.getLabelFromElement (p : SetPart L) (element : Int) : Option L := p.getLabelFromBlock (p.elementToBlock element)

/-- set_part/methods/block_labels/__init__.py:58-62 -/
def SetPart.getBlockFromLabel (p : SetPart L) (label : L) : Option (List Int) := labelInverse p.blockLabels label

/-- set_part/methods/block_labels/__init__.py:65-67 (a missing label is `None`, which is no label) -/
def SetPart.getBlockFromElement (p : SetPart L) (element : Int) : Option (List Int) :=
  (p.getLabelFromElement element).bind p.getBlockFromLabel

/-- set_part/methods/block_labels/__init__.py:6-24.  Lines 15-22 have no effect. -/
def SetPart.addLabelToBlock (p : SetPart L) (block : List Int) (label : L) : Except Err Unit × SetPart L :=
  match p.canonicalBlocksWithSingletons with
  | (.error e, p) => (.error e, p)
  | (.ok canonical, p) =>
    if ! canonical.contains block then (.error .unknownBlock, p)
    else
      let contradiction := match p.blockLabels.get? block with
        | some old => decide (old ≠ label)
        | none => false
      if contradiction then (.error .labelContradiction, p)
      else match bidictSet p.blockLabels block label with
        | .ok labels => (.ok (), { p with blockLabels := labels })
        | .error e => (.error e, p)

/-- set_part/methods/block_labels/__init__.py:70-90 -/
def SetPart.mergeBlockLabels (p : SetPart L) (a b : Int) : Except Err Unit × SetPart L :=
  let blockA := p.elementToBlock a
  let blockB := p.elementToBlock b
  if blockA = blockB then (.ok (), p)
  else
    let labelA := p.getLabelFromBlock blockA
    let labelB := p.getLabelFromBlock blockB
    if labelA.isSome && labelB.isSome then (.error .labelContradiction, p)
    else
      let labels := (p.blockLabels.erase blockA).erase blockB
      let mergedBlock := sortZ (blockA ++ blockB)
      match labelA.or labelB with
      | some label => match bidictSet labels mergedBlock label with
        | .ok labels => (.ok (), { p with blockLabels := labels })
        | .error e => (.error e, { p with blockLabels := labels })
      | none => (.ok (), { p with blockLabels := labels })

/-! ### changing methods -/

/-- set_part/methods/merge_pair/__init__.py:45 (`self.blocks[index].append(b)`); if the stored `canonical_blocks_with_singletons`
holds the same list objects, it changes with them. -/
def SetPart.appendToBlock (p : SetPart L) (index : Nat) (b : Int) : SetPart L :=
  let block := (p.blocks[index]?).getD []
  { p with
    blocks := p.blocks.set index (block ++ [b])
    cache := if p.cache.aliased then
        { p.cache with canonical := p.cache.canonical.map (·.map (fun l => if l = block then block ++ [b] else l)) }
      else p.cache }

/-- set_part/methods/merge_pair/__init__.py:7-47 -/
def SetPart.mergePair (p : SetPart L) (a b : Int) : Except Err Unit × SetPart L :=
  if a = b then (.ok (), p)
  else if ! (p.elementInDomain a && p.elementInDomain b) then (.error .notInDomain, p)
  else match p.mergeBlockLabels a b with
    | (.error e, p) => (.error e, p)
    | (.ok _, p) =>
      let aFound := p.nonSingletons.contains a
      let bFound := p.nonSingletons.contains b
      let indexA := (p.nonSingletonToBlockIndex.get? a).getD 0
      let indexB := (p.nonSingletonToBlockIndex.get? b).getD 0
      if aFound && bFound then
        if indexA = indexB then (.ok (), p)
        else
          let blockA := (p.blocks[indexA]?).getD []
          let blockB := (p.blocks[indexB]?).getD []
          let mergedBlock := sortZ (blockA ++ blockB)
          reinit { p with blocks := ((p.blocks.erase blockA).erase blockB) ++ [mergedBlock] }
      else if ! aFound && ! bFound then
        reinit { p with blocks := p.blocks ++ [[a, b]] }
      else if bFound && ! aFound then
        reinit (p.appendToBlock indexB a)
      else
        reinit (p.appendToBlock indexA b)

/-- a loop of `merge_pair` over a list of pairs; stops at the first exception -/
def SetPart.mergePairs (p : SetPart L) : List (Int × Int) → Except Err Unit × SetPart L
  | [] => (.ok (), p)
  | (a, b) :: rest => match p.mergePair a b with
    | (.ok _, p) => p.mergePairs rest
    | (.error e, p) => (.error e, p)

/-- set_part/methods/merge_many/__init__.py:4-8 -/
def SetPart.mergeMany (p : SetPart L) (many : List Int) : Except Err Unit × SetPart L :=
  match p.mergePairs (combinations2 many) with
  | (.ok _, p) => reinit p
  | (.error e, p) => (.error e, p)

/-- set_part/methods/block_labels/__init__.py:27-43 -/
def SetPart.addLabelToElement (p : SetPart L) (element : Int) (label : L) : Except Err Unit × SetPart L :=
  if ! p.elementInDomain element then (.error .unknownElement, p)
  else
    let blockFromElement := p.elementToBlock element
    let contradiction := match p.getLabelFromBlock blockFromElement with
      | some old => decide (label ≠ old)
      | none => false
    if contradiction then (.error .labelContradiction, p)
    else match p.getBlockFromLabel label with
      | some blockFromLabel => p.mergePair (blockFromElement.headD 0) (blockFromLabel.headD 0)
      | none => p.addLabelToBlock (p.elementToBlock element) label

/-- a loop of `bd[key] = label`; stops at the first exception -/
def setLabels (d : Dict (List Int) L) : List (List Int × L) → Except Err Unit × Dict (List Int) L
  | [] => (.ok (), d)
  | (key, label) :: rest => match bidictSet d key label with
    | .ok d => setLabels d rest
    | .error e => (.error e, d)

/-- set_part/methods/refine_block/__init__.py:7-33.  The check in line 14 never fails: `chain` keeps repeated elements.
(The type checks in lines 9 and 27 are not modelled.) -/
def SetPart.refineBlock (p : SetPart L) (newBlocks : List (List Int)) (newLabels : Option (List L)) :
    Except Err Unit × SetPart L :=
  let oldBlock := sortZ newBlocks.flatten
  if ! p.blocks.contains oldBlock then (.error .argValue, p)
  else
    let p := { p with blocks := p.blocks.erase oldBlock ++ newBlocks, blockLabels := p.blockLabels.erase oldBlock }
    match newLabels with
    | none => reinit p
    | some labels =>
      if labels.length ≠ newBlocks.length then (.error .argValue, p)
      else match setLabels p.blockLabels (newBlocks.zip labels) with
        | (.ok _, d) => reinit { p with blockLabels := d }
        | (.error e, d) => (.error e, { p with blockLabels := d })

end labels

/-! ### meet and join

The results are new objects.  That the prototypes also fill the cache of `self` and `other` is left out. -/

/-- set_part/methods/meet_and_join/meet.py:18-31 -/
def SetPart.meet (p q : SetPart L) : Except Err (SetPart L) :=
  if ! p.domain.eq q.domain then .error .domainsNotEqual
  else
    let meetBlocks := (p.blocks.flatMap (fun s => q.blocks.map (fun o => sortZ ((pySet s).filter (o.contains ·))))).filter
      (fun intersection => ! intersection.isEmpty)
    newPart meetBlocks p.domain

/-- a new object changed by merging pairs, raising what `merge_pair` raises -/
def mergeAll [DecidableEq L] (r : Except Err (SetPart L)) (pairs : List (Int × Int)) : Except Err (SetPart L) :=
  match r with
  | .error e => .error e
  | .ok p => match p.mergePairs pairs with
    | (.ok _, p) => .ok p
    | (.error e, _) => .error e

/-- set_part/methods/meet_and_join/meet.py:6-15 -/
def SetPart.meetPrototype [DecidableEq L] (p q : SetPart L) : Except Err (SetPart L) :=
  if ! p.domain.eq q.domain then .error .domainsNotEqual
  else mergeAll (newPart [] p.domain) (p.pairs.1.filter (q.pairs.1.contains ·))

/-- set_part/methods/meet_and_join/join/_0_prototypes.py:7-15 -/
def SetPart.joinPrototype [DecidableEq L] (p q : SetPart L) : Except Err (SetPart L) :=
  if ! p.domain.eq q.domain then .error .domainsNotEqual
  else mergeAll (newPart [] p.domain) (p.pairs.1 ∪ q.pairs.1)

/-- The state of `current_block` and `new_elements` in `join`. -/
structure JoinState where
  current : List Int
  new : List Int

/-- set_part/methods/meet_and_join/join/_1_fast.py:25-45 (`join_blocks`).  The union in line 44 adds the elements of the difference
in line 43. -/
def joinBlocks (part : SetPart L) (s : JoinState) : JoinState :=
  let addedBlocks := s.new.filterMap (fun e => part.nonSingletonToBlockIndex.get? e)
  let single := s.new.filter (fun e => (part.nonSingletonToBlockIndex.get? e).isNone)
  let added := pySet (single ++ (pySet addedBlocks).flatMap (fun i => (part.blocks[i]?).getD []))
  let new := added.filter (fun e => ! s.current.contains e)
  { current := s.current ++ new, new := new }

/-- set_part/methods/meet_and_join/join/_1_fast.py:58-59, the `while` loop with fuel; `none` if the fuel does not suffice (shown not
to happen). -/
def joinLoop (p q : SetPart L) : Nat → JoinState → Option (List Int)
  | 0, _ => none
  | fuel + 1, s =>
    let s1 := joinBlocks p s
    let s2 := joinBlocks q s1
    if s1.new.length + s2.new.length > 0 then joinLoop p q fuel s2 else some s2.current

/-- set_part/methods/meet_and_join/join/_1_fast.py:54-60 over the elements of the set `domain` in the order of the given list;
`done` are the keys of `result_dict`, `blocks` is `result_blocks`. -/
def joinElements (p q : SetPart L) (fuel : Nat) : List Int → List Int → List (List Int) → Except Err (List (List Int))
  | [], _, blocks => .ok blocks
  | element :: rest, done, blocks =>
    if done.contains element then joinElements p q fuel rest done blocks
    else match joinLoop p q fuel { current := [], new := [element] } with
      | none => .error .diverges
      | some block => joinElements p q fuel rest (done ++ block) (blocks ++ [block])

/-- set_part/methods/meet_and_join/join/_1_fast.py:1-62, where the elements of `domain` come in the order of `order`. -/
def SetPart.joinInOrder (p q : SetPart L) (order : List Int) : Except Err (SetPart L) :=
  match joinElements p q (order.length + 2) order [] [] with
  | .ok blocks => newPart blocks
  | .error e => .error e

/-- set_part/methods/meet_and_join/join/_1_fast.py:1-62 -/
def SetPart.join (p q : SetPart L) : Except Err (SetPart L) := p.joinInOrder q (p.nonSingletons ∪ q.nonSingletons)

/-- set_part/methods/meet_and_join/join/_0_prototypes.py:18-55 -/
def SetPart.joinPrototypeImproved [DecidableEq L] (p q : SetPart L) : Except Err (SetPart L) := do
  let meetPart ← p.meet q
  let trash := meetPart.blocks.flatMap (fun block => block.filter (fun e => e ≠ block.foldl min (block.headD 0)))
  let repToTrash : Dict Int (List Int) := Dict.ofPairs (meetPart.blocks.map (fun block =>
    let rep := block.foldl min (block.headD 0)
    (rep, block.filter (fun e => e ≠ rep))))
  let cleanS := p.blocks.map (fun block => sortZ ((pySet block).filter (fun e => ! trash.contains e)))
  let cleanO := q.blocks.map (fun block => sortZ ((pySet block).filter (fun e => ! trash.contains e)))
  let cleanSPart : SetPart L ← newPart cleanS
  let cleanOPart ← newPart cleanO
  let cleanJoin ← cleanSPart.joinPrototype cleanOPart
  let cleanDomain := (pySet p.blocks.flatten ∪ pySet q.blocks.flatten).filter (fun e => ! trash.contains e)
  let cleanBlocks ← cleanJoin.blocksWithSingletons { elements := some cleanDomain }
  newPart (cleanBlocks.map (fun block => sortZ (pySet (block ++ block.flatMap (fun e => (repToTrash.get? e).getD []))))) p.domain

/-- set_part/__init__.py:124-126 -/
def SetPart.le (p q : SetPart L) : Except Err Bool :=
  if ! p.domain.eq q.domain then .error .domainsNotEqual
  else match p.join q with
    | .ok r => r.eq q
    | .error e => .error e

/-- set_part/__init__.py:128-129; `!=` is the negation of `==` -/
def SetPart.lt (p q : SetPart L) : Except Err Bool :=
  match p.eq q with
  | .error e => .error e
  | .ok true => .ok false
  | .ok false => p.le q

end Verif.SP
