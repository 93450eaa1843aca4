import Verif.Boolf.Model4
import Verif.Boolf.Model6
import Verif.A.Combi
import Mathlib.Data.Sum.Order
import Mathlib.Data.Prod.Lex
import Mathlib.Data.Char
import Mathlib.Data.List.Lex

/-!
# Model of `Boolf` (boolf/), part 25: names of atoms, `filtrated_pairs_pretty`
-/

namespace Verif.BF
open Verif.Py Verif.BV Verif.P Verif.W
open Verif.A hiding Mat

/-- The name of an atom: a number or a string.  The order is that of numbers and that of strings.  (In the model every number is below every string, while python raises
`TypeError` for such a comparison.  So lists of names are assumed to be all numbers or all strings.) -/
abbrev Name := Int ⊕ₗ List Char

/-- the name of a number -/
def Name.num (i : Int) : Name := Sum.inlₗ i

/-- the name of a string -/
def Name.str (s : List Char) : Name := Sum.inrₗ s

/-- a/alphabet_subset/__init__.py:9 -/
def alphabet : List Char := "ABCDEFGHIJKLMNOPQRSTUVWXYZ".toList

/-- `alphabet[i]` -/
def letterAt (i : Int) : Except Err Name :=
  let j := if i < 0 then i + alphabet.length else i
  if 0 ≤ j then do return Name.str [← item alphabet j.toNat] else .error .indexError

/-- a/alphabet_subset/__init__.py:5-20; `max` of an empty list raises `ValueError` -/
def alphabetSubset (exposet : List Int) : Except Err (List Name) :=
  match exposet with
  | [] => .error .valueError
  | x :: xs => if xs.foldl max x < 26 then exposet.mapM letterAt else .ok (exposet.map Name.num)

/-- boolf/methods/_pretty/filtrated_pairs_pretty/__init__.py:7-10, and the same lines in boolf/methods/_pretty/bundles_pretty/__init__.py:7-10,
boolf/methods/_pretty/fullspot_atoms_pretty/__init__.py:7-10, boolf/methods/_pretty/fullspotlinks_by_atom_pretty/__init__.py:11-14 -/
def Boolf.chooseNames (f : Boolf) : Option (List Name) → Except Err (List Name)
  | some names => if names.dedup.length = f.valency then .ok names else .error .argMismatch
  | none => alphabetSubset (f.atomvals.map Int.ofNat)

/-- boolf/methods/_pretty/filtrated_pairs_pretty/__init__.py:21-25 for the remaining items -/
def appendPairs (names : List Name) : List ((Nat × Nat) × List Char) → Dict (List Char) (List (Name × Name)) → Except Err (Dict (List Char) (List (Name × Name)))
  | [], intermediate => .ok intermediate
  | ((a, b), relPattern) :: rest, intermediate => do
    let x ← item names a
    let y ← item names b
    match intermediate.get? relPattern with
    | some l => appendPairs names rest (intermediate.set relPattern (l ++ [(x, y)]))
    | none => .error .keyError

/-- boolf/methods/_pretty/filtrated_pairs_pretty/__init__.py:32-50 for the remaining items.  The second state is `list_of_pairs_with_rel_subset`. -/
def renamePatterns : Dict (List Char) (List (Name × Name)) → Dict (List Char) (List (Name × Name)) × List (Name × Name) →
    Dict (List Char) (List (Name × Name)) × List (Name × Name)
  | [], state => state
  | (relPattern, pairs) :: rest, (prettyPre, subsets) => renamePatterns rest (
    if relPattern = "1111".toList then (prettyPre.set "crossing".toList pairs, subsets)
    else if relPattern = "1110".toList then (prettyPre.set "disjoint".toList pairs, subsets)
    else if relPattern = "0111".toList then (prettyPre.set "universal".toList pairs, subsets)
    else if relPattern = "0110".toList then (prettyPre.set "complementary".toList pairs, subsets)
    else if relPattern = "1001".toList then (prettyPre.set "equal".toList pairs, subsets)
    else if relPattern = "1011".toList then (prettyPre, subsets ++ pairs.map fun p => (p.1, p.2))
    else if relPattern = "1101".toList then (prettyPre, subsets ++ pairs.map fun p => (p.2, p.1))
    else (prettyPre.set relPattern pairs, subsets))

/-- boolf/methods/_pretty/filtrated_pairs_pretty/__init__.py:58 -/
def keyWords : List (List Char) :=
  ["crossing".toList, "disjoint".toList, "universal".toList, "subset".toList, "equal".toList, "complementary".toList]

/-- boolf/methods/_pretty/filtrated_pairs_pretty/__init__.py:60-62 for the remaining words -/
def wordsFirst (prettyPre : Dict (List Char) (List (Name × Name))) : List (List Char) → Dict (List Char) (List (Name × Name)) → Dict (List Char) (List (Name × Name))
  | [], pretty => pretty
  | key :: rest, pretty => wordsFirst prettyPre rest (match prettyPre.get? key with
    | some l => pretty.set key l
    | none => pretty)

/-- boolf/methods/_pretty/filtrated_pairs_pretty/__init__.py:64-66 for the remaining items -/
def othersLast : Dict (List Char) (List (Name × Name)) → Dict (List Char) (List (Name × Name)) → Dict (List Char) (List (Name × Name))
  | [], pretty => pretty
  | (key, l) :: rest, pretty => othersLast rest (if key ∈ keyWords then pretty else pretty.set key l)

/-- `sorted` for pairs of names -/
def sortPairs (l : List (Name × Name)) : List (Name × Name) := ((l.map toLex).insertionSort (· ≤ ·)).map ofLex

/-- boolf/methods/_pretty/filtrated_pairs_pretty/__init__.py:17-66 from the values of `filtrated_pairs` -/
def prettyPairs (names : List Name) (unpretty : Dict (Nat × Nat) (List Char)) : Except Err (Dict (List Char) (List (Name × Name))) := do
  let relPatterns := sortedColex unpretty.values.dedup
  let intermediate ← appendPairs names unpretty (Dict.ofPairs (relPatterns.map fun relPattern => (relPattern, [])))
  let (prettyPre, subsets) := renamePatterns intermediate ([], [])
  let prettyPre := if subsets = [] then prettyPre else prettyPre.set "subset".toList (sortPairs subsets)
  return othersLast prettyPre (wordsFirst prettyPre keyWords [])

/-- boolf/methods/_pretty/filtrated_pairs_pretty/__init__.py:5-68 -/
noncomputable def Boolf.filtratedPairsPretty (f : Boolf) (atomnames : Option (List Name) := none) : Except Err (Dict (List Char) (List (Name × Name))) := do
  let names ← f.chooseNames atomnames
  prettyPairs names (← f.filtratedPairs)

end Verif.BF
