import Verif.Boolf.Model17
import Verif.Boolf.Model26

/-!
# Model of `Boolf` (boolf/), part 31: the printed list of segments
-/

namespace Verif.BF
open Verif.Py Verif.BV Verif.P Verif.W Verif.SP
open Verif.A hiding Mat

/-- boolf/methods/find_segments/a/classes/segment/__init__.py:50-51 -/
def Segment.string (s : Segment) : Except Err (List Char) := balancedTernaryVectorToString s.vector

/-- `self.segments[dimension]`: a `defaultdict` that is read at a missing key gets an empty dictionary.  This happens in the lines 40, 50 and 60 of
boolf/methods/find_segments/a/classes/collection_of_segments/__init__.py. -/
def Collection.read (c : Collection) (dimension : Nat) : Collection :=
  match c.segments.get? dimension with
  | some _ => c
  | none => { c with segments := c.segments.set dimension [] }

/-- boolf/methods/find_segments/a/classes/collection_of_segments/__init__.py:79-81 for the remaining vectors -/
def groupByPattern : List (List Int) → Dict (List Nat) (List (List Int)) → Dict (List Nat) (List (List Int))
  | [], d => d
  | vector :: rest, d => groupByPattern rest (d.set (zeroKeys vector) ((d.get? (zeroKeys vector)).getD [] ++ [vector]))

/-- boolf/methods/find_segments/a/classes/collection_of_segments/__init__.py:89-91 -/
def vectorLine (vector : List Int) : Except Err (List Char × List Nat) := do
  let vectorString ← balancedTernaryVectorToString vector
  let adjacentSpots ← segmentToAdjacentSpots vector
  return (vectorString, adjacentSpots)

/-- boolf/methods/find_segments/a/classes/collection_of_segments/__init__.py:84-92 -/
def patternLine (names : List Name) (patternToVectors : Dict (List Nat) (List (List Int))) (pattern : List Nat) : Except Err (List Char × Dict (List Char) (List Nat)) := do
  let patternWithAtomnames ← pattern.mapM fun key => item names key
  let strings ← patternWithAtomnames.mapM Name.string
  let listOfVectors := sortedColex ((patternToVectors.get? pattern).getD [])
  return (List.intercalate [','] strings, Dict.ofPairs (← listOfVectors.mapM vectorLine))

/-- boolf/methods/find_segments/a/classes/collection_of_segments/__init__.py:77-92 -/
def dimensionLines (names : List Name) (p : Nat × Dict (List Int) Segment) : Except Err (Nat × List (List Char × Dict (List Char) (List Nat))) := do
  let patternToVectors := groupByPattern p.2.keys []
  return (p.1, ← (sortedColex patternToVectors.keys).mapM (patternLine names patternToVectors))

/-- boolf/methods/find_segments/a/classes/collection_of_segments/__init__.py:68-92.  The printed text is represented by the printed objects: for each dimension (of the first line)
the pairs of the following lines.  (When there is an exception, the lines before it are not represented.)  `f` is `self.boolf`. -/
def Collection.printSegments (c : Collection) (f : Boolf) (atomnames : Option (List Name) := none) : Except Err (List (Nat × List (List Char × Dict (List Char) (List Nat)))) := do
  let names ← f.chooseNames atomnames
  c.segments.mapM (dimensionLines names)

end Verif.BF
