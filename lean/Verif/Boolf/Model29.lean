import Verif.Boolf.Model16

/-!
# Model of `Boolf` (boolf/), part 29: the matrix of a clan as a wiki table

`ec_clan_matrix_wiki` prints its result.  The model returns the list of the printed strings.  (If there is an exception, some of them may already be printed; this is not modelled.)
Strings that grow by `+=` in a loop are the concatenations of the added parts.
-/

namespace Verif.BF
open Verif.Py Verif.BV Verif.P Verif.W Verif.SP
open Verif.A hiding Mat

/-! ## the table of signed permutations in a cell -/

/-- boolf/methods/_ec/ec_clan_matrix_wiki/__init__.py:20-23 (and 27-30) for the remaining weights; the second argument is the place of the first of them -/
def bordersLoop : List Nat → Nat → Option Nat → List Nat → List Nat
  | [], _, _, result => result
  | weight :: rest, i, lastWeight, result =>
    bordersLoop rest (i + 1) (some weight) (if lastWeight.isSome && lastWeight ≠ some weight then result ++ [i] else result)

/-- boolf/methods/_ec/ec_clan_matrix_wiki/__init__.py:10-11 (and 13-14) -/
def sortByWeight (exposet : List Nat) : Except Err (List Nat × List Nat) := do
  let weights ← exposet.mapM fun n : Nat => do return (← BV.mk { intval := some (n : Int) }).weight
  unpackTwo (← sortTogetherAll [weights, exposet])

/-- boolf/methods/_ec/ec_clan_matrix_wiki/__init__.py:39-45 for the remaining triples.  The matrix is a dictionary of those entries that are not `None`.
(The pairs of indices are always within its shape.) -/
def fillLoop (keynegExposet valnegExposet : List Nat) : List (Nat × Nat × Nat) → Dict (Nat × Nat) (List Nat) → Except Err (Dict (Nat × Nat) (List Nat))
  | [], matrix => .ok matrix
  | (keynegIndex, permIndex, valnegIndex) :: rest, matrix => do
    let i ← indexOf keynegExposet keynegIndex
    let j ← indexOf valnegExposet valnegIndex
    fillLoop keynegExposet valnegExposet rest (addTo matrix (i, j) permIndex)

/-- boolf/methods/_ec/ec_clan_matrix_wiki/__init__.py:75-81 -/
def sequenceHtml (sequence : List Int) : List Char :=
  "<span class=\"sequence\">(".toList ++
    (sequence.zipIdx.flatMap fun (entry, key) =>
      let negatorClass := if entry < 0 then " negated".toList else []
      let comma := if (key : Int) < (sequence.length : Int) - 1 then ", ".toList else []
      "<span class=\"entry".toList ++ negatorClass ++ "\">".toList ++ intStr (logicAbs entry) ++ "</span>".toList ++ comma) ++
    ")</span>".toList

/-- boolf/methods/_ec/ec_clan_matrix_wiki/__init__.py:72-82 for one of `count` permutations -/
def permHtml (arity valnegIndex count permIndex p : Nat) : Except Err (List Char) := do
  let br := if (p : Int) < (count : Int) - 1 then "<br>".toList else []
  let permIcon := "[[File:Finite permutation number ".toList ++ natStr permIndex ++ ".svg|20px|link=]]".toList
  let sequence ← (← SG.new { pair := some ((valnegIndex : Int), (permIndex : Int)) }).sequence (some arity)
  return "<span class=\"icon-and-sequence\">".toList ++ permIcon ++ sequenceHtml sequence ++ "</span>".toList ++ br

/-- boolf/methods/_ec/ec_clan_matrix_wiki/__init__.py:69-82; the second argument is the entry of the matrix -/
def permsHtml (arity valnegIndex : Nat) : Option (List Nat) → Except Err (List Char)
  | some perms => do
    let permExposet := sorted perms
    let parts ← permExposet.zipIdx.mapM fun x : Nat × Nat => permHtml arity valnegIndex permExposet.length x.1 x.2
    return parts.flatten
  | none => .ok []

/-- boolf/methods/_ec/ec_clan_matrix_wiki/__init__.py:66-83 -/
def tdHtml (arity : Nat) (colsWithBorder : List Nat) (matrix : Dict (Nat × Nat) (List Nat)) (i valnegIndex j : Nat) : Except Err (List Char) := do
  let borderClass := if j ∈ colsWithBorder then " class=\"border-left\"".toList else []
  let content ← permsHtml arity valnegIndex (matrix.get? (i, j))
  return "<td".toList ++ borderClass ++ ">".toList ++ content ++ "</td>".toList

/-- boolf/methods/_ec/ec_clan_matrix_wiki/__init__.py:62-84 -/
def trHtml (arity : Nat) (valnegExposet rowsWithBorder colsWithBorder : List Nat) (matrix : Dict (Nat × Nat) (List Nat)) (keynegIndex i : Nat) : Except Err (List Char) := do
  let borderClass := if i ∈ rowsWithBorder then " class=\"border-top\"".toList else []
  let tds ← valnegExposet.zipIdx.mapM fun (valnegIndex, j) => tdHtml arity colsWithBorder matrix i valnegIndex j
  return "<tr".toList ++ borderClass ++ ">".toList ++ "<th class=\"left-label\">[[File:Cube vertex number ".toList ++ natStr keynegIndex ++ " in square.svg|20px|link=]]</th>".toList ++
    tds.flatten ++ "</tr>".toList

/-- boolf/methods/_ec/ec_clan_matrix_wiki/__init__.py:9-87 -/
def indexTriplesToValnegHtml (keynegs valnegs : List Nat) (indexTriples : List (Nat × Nat × Nat)) (arity : Nat) : Except Err (List Char) := do
  let (keynegWeights, keynegExposet) ← sortByWeight keynegs
  let (valnegWeights, valnegExposet) ← sortByWeight valnegs
  let rowsWithBorder := bordersLoop keynegWeights 0 none []
  let colsWithBorder := bordersLoop valnegWeights 0 none []
  let matrix ← fillLoop keynegExposet valnegExposet indexTriples []
  let htmlIcons := "<span class=\"number-icons\">".toList ++
    (valnegExposet.zipIdx.flatMap fun (valnegIndex, j) =>
      (if j ∈ colsWithBorder then "[[File:1x1.png|2px|link=]]".toList else []) ++
        "[[File:Cube vertex number ".toList ++ natStr valnegIndex ++ ".svg|20px|link=]]".toList) ++ "</span>".toList
  let htmlTableHeader := "<tr class=\"top-labels\"><th class=\"left-label\"></th>".toList ++
    (valnegExposet.zipIdx.flatMap fun (valnegIndex, j) =>
      "<th".toList ++ (if j ∈ colsWithBorder then " class=\"border-left\"".toList else []) ++
        ">".toList ++ "[[File:Cube vertex number ".toList ++ natStr valnegIndex ++ ".svg|20px|link=]]</th>".toList) ++ "</tr>".toList
  let rows ← keynegExposet.zipIdx.mapM fun (keynegIndex, i) => trHtml arity valnegExposet rowsWithBorder colsWithBorder matrix keynegIndex i
  let htmlTable := "<table class=\"valneg-hover\">".toList ++ htmlTableHeader ++ rows.flatten ++ "</table>".toList
  return "<div class=\"valneg-wrapper\">".toList ++ htmlIcons ++ htmlTable ++ "</div>".toList

/-! ## the parts of a row -/

/-- boolf/methods/_ec/ec_clan_matrix_wiki/__init__.py:99-101 for the remaining indices -/
def weightSets : List Nat → Dict Nat (List Nat) → Except Err (Dict Nat (List Nat))
  | [], d => .ok d
  | keynegIndex :: rest, d => do
    let weight := (← BV.mk { intval := some (keynegIndex : Int) }).weight
    weightSets rest (addTo d weight keynegIndex)

/-- boolf/methods/_ec/ec_clan_matrix_wiki/__init__.py:95-115 -/
def keynegTable (factionKeynegs : Dict Nat (List Nat)) (factionRep : Nat) : Except Err (List Char) := do
  let keynegExposet ← dictGet factionKeynegs factionRep
  let weightToExposet ← weightSets keynegExposet []
  let weights := sorted weightToExposet.keys
  let weightRow := "<tr class=\"weights\">".toList ++ (weights.flatMap fun weight => "<td>".toList ++ natStr weight ++ "</td>".toList) ++ "</tr>".toList
  let cells ← weights.mapM fun weight => do
    let exposet := sorted (← dictGet weightToExposet weight)
    return "<td><span class=\"number-icons\">".toList ++
      (exposet.flatMap fun keynegIndex => "[[File:Cube vertex number ".toList ++ natStr keynegIndex ++ " in square.svg|25px]]".toList) ++ "</span></td>".toList
  let indexRow := "<tr class=\"indices\">".toList ++ cells.flatten ++ "</tr>".toList
  let table := "<table class=\"keyneg-indices\">".toList ++ weightRow ++ indexRow ++ "</table>".toList
  let sortkey := "<span class=\"invisible-sortkey\">&".toList ++ natStr weights.sum ++ "_".toList ++ weights.flatMap natStr ++ "</span>".toList
  return sortkey ++ table

/-- boolf/methods/_ec/ec_clan_matrix_wiki/__init__.py:124-129 -/
def vennString (adicity : Nat) (ttBinary : List Char) : List Char :=
  if adicity = 3 then "[[File:Venn ".toList ++ ttBinary ++ ".svg|25px]]<br>".toList
  else if adicity = 2 then "[[File:Venn".toList ++ ttBinary ++ ".svg|25px]]<br>".toList
  else []

/-- boolf/methods/_ec/ec_clan_matrix_wiki/__init__.py:133-138 -/
def cellClasses : Bool → Bool → List Char
  | false, false => []
  | false, true => "class=\"base\"".toList
  | true, false => "class=\"border\"".toList
  | true, true => "class=\"border base\"".toList

/-- boolf/methods/_ec/ec_clan_matrix_wiki/__init__.py:119-151 -/
noncomputable def cellString (f : Boolf) (M : ClanMatrix) (factionRep zhe : Nat) (cellHasBorder : Bool) : Except Err (List Char) := do
  let zheBinary ← (← BV.mk { intval := some (zhe : Int), length := some ((2 ^ f.valency : Nat) : Int) }).pretty
  let boolf ← new { zhe := some (zhe : Int) }
  let ttBinary ← (← boolf.tt).pretty
  let venn := vennString f.adicity ttBinary
  let indexTriples ← dictGet M.zheTriples zhe
  let cellIsBase := decide ((0, 0, 0) ∈ indexTriples)
  let classes := cellClasses cellHasBorder cellIsBase
  let familyRepClass := if zhe ∈ M.familyReps then " neg-ec-min".toList else []
  let factionRepClass := if zhe ∈ M.factionReps then " perm-ec-min".toList else []
  let splinterSize ← dictGet M.sizes factionRep
  if splinterSize = 0 then .error .zeroDivision else
  let colspan := M.lcm / (splinterSize : Int)
  let html ← indexTriplesToValnegHtml (← dictGet M.zheKeynegs zhe) (← dictGet M.zheValnegs zhe) indexTriples f.adicity
  return "|colspan=\"".toList ++ intStr colspan ++ "\" ".toList ++ classes ++ "|".toList ++ venn ++ " <abbr class=\"zhegalkin".toList ++ familyRepClass ++ factionRepClass ++
    "\" title=\"".toList ++ zheBinary ++ "&#10;".toList ++ ttBinary ++ "\">".toList ++ natStr zhe ++ "</abbr>".toList ++ html

/-- boolf/methods/_ec/ec_clan_matrix_wiki/__init__.py:170-175 -/
def familyHeader (M : ClanMatrix) (familyRep : Nat) : Except Err (List Char) := do
  let permExposet ← dictGet M.familyPerms familyRep
  return "!colspan=\"".toList ++ intStr M.lcm ++ "\" class=\"unsortable border\"| <span class=\"number-icons\">".toList ++
    (permExposet.flatMap fun permIndex => "[[File:Finite permutation number ".toList ++ natStr permIndex ++ ".svg|25px]]".toList) ++
    "</span><br><span class=\"neg-ec-min ec-min-side\">".toList ++ natStr familyRep ++ "</span>".toList

/-- boolf/methods/_ec/ec_clan_matrix_wiki/__init__.py:178-188 -/
noncomputable def factionLines (f : Boolf) (M : ClanMatrix) (factionRep : Nat) : Except Err (List (List Char)) := do
  let cardinality := (← dictGet M.sizes factionRep) * M.familyReps.length
  let weight ← dictGet M.weights factionRep
  let table ← keynegTable M.factionKeynegs factionRep
  let cells ← M.familyReps.mapM fun familyRep => do
    let splinter ← dictGet M.splinterDict (factionRep, familyRep)
    splinter.zipIdx.mapM fun (zhe, i) => cellString f M factionRep zhe ((i : Int) = (splinter.length : Int) - 1)
  return ["|-".toList, "|class=\"zhegalkin-weight\"| ".toList ++ (match weight with | some w => natStr w | none => "None".toList),
    "|class=\"cardinality\"| ".toList ++ natStr cardinality, "|class=\"perm-ec-min ec-min-side\"| ".toList ++ natStr factionRep, "! ".toList ++ table] ++ cells.flatten

/-- boolf/methods/_ec/ec_clan_matrix_wiki/__init__.py:162-167 -/
def wikiTop : List (List Char) :=
  ["<templatestyles src=\"Studies of Euler diagrams/NP tables/style.css\" />".toList,
    "{| class=\"wikitable sortable np\" style=\"text-align: center;\"\n|-".toList,
    "! <abbr class=\"hint\" title=\"binary weight of the Zhegalkin indices in that row\">W</abbr>".toList,
    "! <abbr class=\"hint\" title=\"cardinality of the permutation equivalence class&#10;(number of different functions in that row)\">C</abbr>".toList,
    "!".toList, "!".toList]

/-- boolf/methods/_ec/ec_clan_matrix_wiki/__init__.py:190-194 -/
def wikiBottom (valency : Nat) : List Char :=
  "|}<noinclude>[[Category:Studies of Euler diagrams; templates; NP tables".toList ++ (if valency = 4 then "; 4-ary".toList else []) ++ "]]</noinclude>".toList

/-- boolf/methods/_ec/ec_clan_matrix_wiki/__init__.py:92-194: the printed strings.  For the parameters see `Boolf.ecClanPartitioned`. -/
noncomputable def Boolf.ecClanMatrixWiki (order : List Boolf → List Boolf) (orderPerm orderNeg : List (List Boolf) → List (List Boolf)) (f : Boolf) :
    Except Err (List (List Char)) := do
  let M ← f.ecClanMatrix order orderPerm orderNeg
  let headers ← M.familyReps.mapM (familyHeader M)
  let rows ← M.factionReps.mapM (factionLines f M)
  return wikiTop ++ headers ++ rows.flatten ++ [wikiBottom f.valency]

end Verif.BF
