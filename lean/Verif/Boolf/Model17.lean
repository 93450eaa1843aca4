import Mathlib.Logic.Relation
import Verif.Boolf.Model8
import Verif.Boolf.Model16

/-!
# Model of `Boolf` (boolf/), part 17: segments

Python's limit on the depth of recursion is not modelled.
-/

namespace Verif.BF
open Verif.Py Verif.BV Verif.P Verif.W Verif.SP
open Verif.A hiding Mat

/-! ## `segment_to_adjacent_spots` -/

/-- the dictionary of boolf/a/segment_to_adjacent_spots/__init__.py:8-12; `none` is `None` -/
def ternaryToBinary (x : Int) : Except Err (Option Int) :=
  if x = -1 then .ok (some 0) else if x = 0 then .ok none else if x = 1 then .ok (some 1) else .error .keyError

/-- `product([0, 1], repeat=n)` -/
def binaryTuples : Nat → List (List Int)
  | 0 => [[]]
  | n + 1 => (binaryTuples n).map (0 :: ·) ++ (binaryTuples n).map (1 :: ·)

/-- `[key for key, val in enumerate(vector) if val == 0]` -/
def zeroKeys (vector : List Int) : List Nat := (vector.zipIdx.filter fun e => e.1 = 0).map Prod.snd

/-- `[key for key, val in enumerate(vector) if val != 0]` -/
def signKeys (vector : List Int) : List Nat := (vector.zipIdx.filter fun e => e.1 ≠ 0).map Prod.snd

/-- boolf/a/segment_to_adjacent_spots/__init__.py:23-24 for the remaining free places -/
def fillFree : List Nat → List Int → List (Option Int) → List (Option Int)
  | place :: places, x :: xs, v => fillFree places xs (v.set place (some x))
  | _, _, v => v

/-- boolf/a/segment_to_adjacent_spots/__init__.py:6-28.  (A remaining `None` in the list would not be allowed in `Binv`.) -/
def segmentToAdjacentSpots (vector : List Int) : Except Err (List Nat) := do
  let raw ← vector.mapM ternaryToBinary
  let free := zeroKeys vector
  let spotints ← (binaryTuples free.length).mapM fun t => do
    let spot := fillFree free t raw
    return (← BV.mk { vector := some (.list (spot.map fun x => x.getD 2)) }).intval
  return sorted spotints

/-! ## the classes -/

/-- boolf/methods/find_segments/a/classes/segment/__init__.py:7-34: the attributes of a segment (without the reference to its collection) -/
structure Segment where
  vector : List Int
  zeroAtomkeys : List Nat
  signAtomkeys : List Nat
  dimension : Nat
  inferiorVectors : Dict Nat (List (List Int))
  neighborVectors : Dict Nat (List Int)
deriving DecidableEq

/-- boolf/methods/find_segments/a/classes/segment/__init__.py:7-34 -/
def Segment.new (valency : Nat) (vector : List Int) : Except Err Segment :=
  if vector.length = valency then
    if ∀ x ∈ vector, x = -1 ∨ x = 0 ∨ x = 1 then
      .ok ⟨vector, zeroKeys vector, signKeys vector, (zeroKeys vector).length, (zeroKeys vector).map fun k => (k, [vector.set k (-1), vector.set k 1]),
        (signKeys vector).map fun k => (k, vector.set k (vector.getD k 0 * -1))⟩
    else .error .assertion
  else .error .assertion

/-- boolf/methods/find_segments/a/classes/collection_of_segments/__init__.py:9-12: the attributes of a collection.  (The valency stands for the function.) -/
structure Collection where
  valency : Nat
  segments : Dict Nat (Dict (List Int) Segment)
  numberByDimension : List Nat
deriving DecidableEq

/-- boolf/methods/find_segments/a/classes/collection_of_segments/__init__.py:20-25 -/
def Collection.inquire (c : Collection) (vector : List Int) : Bool :=
  match c.segments.get? (vector.count 0) with
  | some d => decide (vector ∈ d.keys)
  | none => false

/-- boolf/methods/find_segments/a/classes/collection_of_segments/__init__.py:34-35 -/
def Collection.store (c : Collection) (vector : List Int) (s : Segment) : Except Err Collection :=
  if s.dimension < c.numberByDimension.length then
    .ok { c with segments := c.segments.set s.dimension (((c.segments.get? s.dimension).getD []).set vector s), numberByDimension := c.numberByDimension.modify s.dimension (· + 1) }
  else .error .indexError

/-- boolf/methods/find_segments/a/classes/collection_of_segments/__init__.py:27-29; `add` is the method -/
def Collection.demand (add : List Int → Collection → Except Err Collection) (vector : List Int) (c : Collection) : Except Err Collection :=
  if c.inquire vector then .ok c else add vector c

/-- boolf/methods/find_segments/a/classes/segment/__init__.py:39-41 for the remaining vectors -/
def demandInferiors (add : List Int → Collection → Except Err Collection) : List (List Int) → Collection → Except Err Collection
  | [], c => .ok c
  | v :: rest, c => do demandInferiors add rest (← c.demand add v)

/-- boolf/methods/find_segments/a/classes/segment/__init__.py:44-48 for the remaining neighbors -/
def demandSuperiors (add : List Int → Collection → Except Err Collection) (vector : List Int) : Dict Nat (List Int) → Collection → Except Err Collection
  | [], c => .ok c
  | (atomkey, neighbor) :: rest, c =>
    if c.inquire neighbor then do demandSuperiors add vector rest (← c.demand add (vector.set atomkey 0))
    else demandSuperiors add vector rest c

/-- boolf/methods/find_segments/a/classes/collection_of_segments/__init__.py:31-36; the number bounds the depth of recursion -/
def Collection.add : Nat → List Int → Collection → Except Err Collection
  | 0, _, _ => .error .diverges
  | fuel + 1, vector, c =>
    if c.inquire vector then .error .assertion
    else do
      let segment ← Segment.new c.valency vector
      let c ← c.store vector segment
      let c ← demandInferiors (Collection.add fuel) (segment.inferiorVectors.flatMap Prod.snd) c
      demandSuperiors (Collection.add fuel) segment.vector segment.neighborVectors c

/-- boolf/methods/find_segments/a/classes/collection_of_segments/__init__.py:16-17 for the remaining atoms -/
def setOnes : List Nat → List Int → Except Err (List Int)
  | [], v => .ok v
  | i :: rest, v => if i < v.length then setOnes rest (v.set i 1) else .error .indexError

/-- boolf/methods/find_segments/a/classes/collection_of_segments/__init__.py:14-18 for the remaining full spots -/
def addSpots (fuel : Nat) : List (List Nat) → Collection → Except Err Collection
  | [], c => .ok c
  | exposet :: rest, c => do
    let vector ← setOnes exposet (List.replicate c.valency (-1))
    addSpots fuel rest (← c.add fuel vector)

/-- boolf/methods/find_segments/a/classes/collection_of_segments/__init__.py:8-18; `order` is the order of the set of full spots, `fuel` bounds the depth of recursion -/
def Boolf.collection (fuel : Nat) (order : List (List Nat) → List (List Nat)) (f : Boolf) : Except Err Collection := do
  addSpots fuel (order (← f.fullspotAtoms).values) ⟨f.valency, [], List.replicate (f.valency + 1) 0⟩

/-! ## spots and links -/

/-- `s.add(x)`; a set is a list without duplicates -/
def addSet {α : Type} [DecidableEq α] (s : List α) (x : α) : List α := if x ∈ s then s else s ++ [x]

/-- boolf/methods/find_segments/a/classes/collection_of_segments/__init__.py:41-44 -/
def spotintOf (vector : List Int) : Nat := vector.zipIdx.foldl (fun n e => if e.1 = 1 then n + 2 ^ e.2 else n) 0

/-- boolf/methods/find_segments/a/classes/collection_of_segments/__init__.py:38-46.  (The empty dictionaries that a `defaultdict` adds, when it is read, are not represented; the same below.) -/
def Collection.getSpots (c : Collection) : List Nat := ((c.segments.get? 0).getD []).keys.foldl (fun s v => addSet s (spotintOf v)) []

/-- boolf/methods/find_segments/a/classes/collection_of_segments/__init__.py:50-54 for the remaining segments -/
def linksLoop' : Dict (List Int) Segment → Dict Nat (List (List Nat)) → Except Err (Dict Nat (List (List Nat)))
  | [], d => .ok d
  | (vector, segment) :: rest, d => do
    let atomkey ← item segment.zeroAtomkeys 0
    let pair ← segmentToAdjacentSpots vector
    linksLoop' rest (addTo d atomkey pair)

/-- boolf/methods/find_segments/a/classes/collection_of_segments/__init__.py:48-55; a pair is a list -/
def Collection.getLinks (c : Collection) : Except Err (Dict Nat (List (List Nat))) := linksLoop' ((c.segments.get? 1).getD []) []

/-- `int(log(n, 2))`; the logarithm is exact -/
def intLog2 (n : Nat) : Except Err Nat := if n = 0 then .error .valueError else .ok (Nat.log2 n)

/-- the unpacking of boolf/methods/find_segments/a/classes/collection_of_segments/__init__.py:62 -/
def unpackFour : List (List Nat) → Except Err (Nat × Nat × Nat × Nat)
  | [[a, b], [c, d]] => .ok (a, b, c, d)
  | _ => .error .valueError

/-- boolf/methods/find_segments/a/classes/collection_of_segments/__init__.py:61-65 for the remaining items -/
def crossingLoop : Dict Nat (List (List Int)) → Dict Nat (List (List Nat × List Nat)) → Except Err (Dict Nat (List (List Nat × List Nat)))
  | [], r => .ok r
  | (_, vectors) :: rest, r => do
    let (a, b, c, d) ← unpackFour (← vectors.mapM segmentToAdjacentSpots)
    let atomkey ← intLog2 (a ^^^ b)
    if atomkey = (← intLog2 (c ^^^ d)) then crossingLoop rest (addTo r atomkey ([a, b], [c, d])) else .error .assertion

/-- boolf/methods/find_segments/a/classes/collection_of_segments/__init__.py:60-65 for the remaining segments -/
def crossingsLoop : Dict (List Int) Segment → Dict Nat (List (List Nat × List Nat)) → Except Err (Dict Nat (List (List Nat × List Nat)))
  | [], r => .ok r
  | (_, segment) :: rest, r => do crossingsLoop rest (← crossingLoop segment.inferiorVectors r)

/-- boolf/methods/find_segments/a/classes/collection_of_segments/__init__.py:57-66 -/
def Collection.getNeighboringLinks (c : Collection) : Except Err (Dict Nat (List (List Nat × List Nat))) := crossingsLoop ((c.segments.get? 2).getD []) []

/-! ## connected components -/

/-- a graph of `networkx` -/
structure SegGraph (α : Type) where
  nodes : List α := []
  edges : List (α × α) := []

/-- `graph.add_node(x)` -/
def SegGraph.addNode {α : Type} [DecidableEq α] (g : SegGraph α) (x : α) : SegGraph α := { g with nodes := addSet g.nodes x }

/-- `graph.add_edge(x, y)`, which also adds the nodes -/
def SegGraph.addEdge {α : Type} [DecidableEq α] (g : SegGraph α) (x y : α) : SegGraph α :=
  { nodes := addSet (addSet g.nodes x) y, edges := g.edges ++ [(x, y)] }

/-- neighboring nodes -/
def SegGraph.Adjacent {α : Type} (g : SegGraph α) (x y : α) : Prop := (x, y) ∈ g.edges ∨ (y, x) ∈ g.edges

open Classical in
/-- `networkx.connected_components` for the remaining nodes: a node that is not in a previous component is the start of a new one.  (The search is represented by its result.) -/
noncomputable def SegGraph.componentsLoop {α : Type} (g : SegGraph α) : List α → List α → List (List α)
  | [], _ => []
  | x :: rest, seen =>
    if x ∈ seen then g.componentsLoop rest seen
    else (g.nodes.filter fun y => Relation.ReflTransGen g.Adjacent x y) ::
      g.componentsLoop rest (seen ++ g.nodes.filter fun y => Relation.ReflTransGen g.Adjacent x y)

/-- `[_ for _ in nx.connected_components(graph)]` -/
noncomputable def SegGraph.components {α : Type} (g : SegGraph α) : List (List α) := g.componentsLoop g.nodes []

/-- `graph.add_edge(*pair)` of boolf/methods/find_segments/a/functions/coco_spots/__init__.py:12-13 for the remaining pairs -/
def addPairs : List (List Nat) → SegGraph Nat → Except Err (SegGraph Nat)
  | [], g => .ok g
  | [a, b] :: rest, g => addPairs rest (g.addEdge a b)
  | _ :: _, _ => .error .typeError

/-- boolf/methods/find_segments/a/functions/coco_spots/__init__.py:4-18 -/
noncomputable def cocoSpots (spots : List Nat) (links : Dict Nat (List (List Nat))) : Except Err (Bool × List (List Nat)) := do
  let graph ← addPairs (links.values.flatMap id) (spots.foldl SegGraph.addNode {})
  return (decide (graph.components.length = 1), graph.components)

/-- the graph of boolf/methods/find_segments/a/functions/coco_links/__init__.py:11-25 -/
def linkGraph (links : Dict Nat (List (List Nat))) (linkPairs : Dict Nat (List (List Nat × List Nat))) (atomkey : Nat) : SegGraph (List Nat) :=
  let graph : SegGraph (List Nat) := match links.get? atomkey with
    | some s => s.foldl SegGraph.addNode {}
    | none => {}
  match linkPairs.get? atomkey with
  | some s => s.foldl (fun g p => g.addEdge p.1 p.2) graph
  | none => graph

/-- boolf/methods/find_segments/a/functions/coco_links/__init__.py:9-30 for the remaining atoms -/
noncomputable def cocoLinksLoop (links : Dict Nat (List (List Nat))) (linkPairs : Dict Nat (List (List Nat × List Nat))) :
    List Nat → Bool → Dict Nat (List (List (List Nat))) → Bool × Dict Nat (List (List (List Nat)))
  | [], connected, d => (connected, d)
  | atomkey :: rest, connected, d =>
    let cocos := (linkGraph links linkPairs atomkey).components
    cocoLinksLoop links linkPairs rest (if cocos.length > 1 then false else connected) (d.set atomkey cocos)

/-- boolf/methods/find_segments/a/functions/coco_links/__init__.py:4-32 -/
noncomputable def cocoLinks (links : Dict Nat (List (List Nat))) (linkPairs : Dict Nat (List (List Nat × List Nat))) (valency : Nat) : Bool × Dict Nat (List (List (List Nat))) :=
  cocoLinksLoop links linkPairs (List.range valency) true []

/-- boolf/methods/find_segments/__init__.py:4-23; for the parameters see `Boolf.collection` -/
noncomputable def Boolf.findSegments (fuel : Nat) (order : List (List Nat) → List (List Nat)) (f : Boolf) : Except Err (Bool × Collection) := do
  let collection ← f.collection fuel order
  let spots := collection.getSpots
  let links ← collection.getLinks
  let linkPairs ← collection.getNeighboringLinks
  let (spotsConnected, _) ← cocoSpots spots links
  let (linksConnected, _) := cocoLinks links linkPairs f.valency
  return (spotsConnected && linksConnected, collection)

end Verif.BF
