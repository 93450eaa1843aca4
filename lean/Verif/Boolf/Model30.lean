import Verif.Boolf.Model29

/-!
# Model of `Boolf` (boolf/), part 30: the row of a wiki table

`wiki_table_row` fills a template with values derived from a function.

Floating point numbers are used in three places.  The comparisons of fractions with .5 are exact.  The product in line 53 is exact in the model;
in python it is exact, too, as long as the truth table has at most `2 ** 53` entries.  `decimal_length` (a rounded logarithm) and the two decimal
representations in lines 55 and 56 are parameters of the model.
-/

namespace Verif.BF
open Verif.Py Verif.BV Verif.P Verif.W Verif.SP
open Verif.A hiding Mat

/-- the exceptions of boolf/methods/wiki_table_row/ex.py:1-10, and others -/
inductive RowErr
  | blight | spread | vfract
  | other (e : Err)
deriving DecidableEq

/-- exceptions raised by other methods -/
def orOther {α : Type} : Except Err α → Except RowErr α
  | .ok x => .ok x
  | .error e => .error (.other e)

/-- a part of a template: characters that are kept, or the name of a value -/
inductive TemplatePart
  | text (s : List Char)
  | field (name : String)
deriving DecidableEq

/-- The letters of names in a python `Template`.  (A digit can not be the first one; there are none in the template.) -/
def isNameChar (c : Char) : Bool := c.isAlpha || c = '_'

/-- The parts of a python `Template` string.  The second argument contains the letters of the name that has begun, or `none`; the third one the kept characters since the last
name.  (`$$` and `${name}` are not represented; they do not occur in the template.  Because of this a `$` without name is not an exception, but an empty name, which is
not a key of the dictionary.) -/
def templateParts : List Char → Option (List Char) → List Char → List TemplatePart
  | [], none, kept => [.text kept]
  | [], some name, kept => [.text kept, .field (String.ofList name)]
  | c :: rest, none, kept => if c = '$' then templateParts rest (some []) kept else templateParts rest none (kept ++ [c])
  | c :: rest, some name, kept =>
    if isNameChar c then templateParts rest (some (name ++ [c])) kept
    else if c = '$' then .text kept :: .field (String.ofList name) :: templateParts rest (some []) []
    else .text kept :: .field (String.ofList name) :: templateParts rest none [c]

/-- the string for a part of a template; `KeyError` for a name without value -/
def partValue (d : Dict String (List Char)) : TemplatePart → Except Err (List Char)
  | .text s => .ok s
  | .field name => dictGet d name

/-- python `Template(src).substitute(d)`, with the values of `d` as strings -/
def substitute (src : List Char) (d : Dict String (List Char)) : Except Err (List Char) := do
  return (← (templateParts src none []).mapM (partValue d)).flatten

/-- boolf/methods/wiki_table_row/string.txt -/
def rowTemplate : List Char :=
  "\n|-\n".toList ++
    "|class=\"zhegalkin $zhegalkin_oddness $zhegalkin_font_size\"| $zhegalkin\n".toList ++
    "|class=\"fraction num $fraction_font_size\"| $vnum\n".toList ++
    "|class=\"fraction den $fraction_font_size\"| $vden\n".toList ++
    "|class=\"fraction dec $vinterval\"| $vdec\n".toList ++
    "|class=\"weight num reduced\"| $wnum\n".toList ++
    "|class=\"weight den reduced\"| $wden\n".toList ++
    "|class=\"weight dec $winterval\"| $wdec\n".toList ++
    "|class=\"weight num unreduced\"| $wnum_big\n".toList ++
    "|class=\"weight den unreduced\"| $wden_big\n".toList ++
    "|class=\"arity\"| $valency\n".toList ++
    "|class=\"bundles$unibundle_class\"| $number_of_bundles\n".toList ++
    "|class=\"names\"| $names_cell".toList

/-- boolf/methods/wiki_table_row/__init__.py:24-25 -/
def vintervalOf (vfract : Rat) : Except RowErr (List Char) :=
  let vinterval := if vfract < 1 / 2 then "below-half".toList else "above-half".toList
  if vfract ≠ 1 / 2 then .ok vinterval else .error .vfract

/-- boolf/methods/wiki_table_row/__init__.py:27-32 -/
def wintervalOf (wfract : Rat) : List Char :=
  if wfract < 1 / 2 then "below-half".toList
  else if wfract = 1 / 2 then "exactly-half".toList
  else "above-half".toList

/-- boolf/methods/wiki_table_row/__init__.py:40-45 -/
def fractionFontSize (vnumLen vdenLen : Nat) : List Char :=
  if vnumLen > 30 ∨ vdenLen > 30 then "smaller".toList
  else if vnumLen > 15 ∨ vdenLen > 15 then "small".toList
  else []

/-- boolf/methods/wiki_table_row/__init__.py:63-68 -/
def zhegalkinFontSize (zhegalkinLen : Nat) : List Char :=
  if zhegalkinLen > 30 then "smaller".toList
  else if zhegalkinLen > 15 then "small".toList
  else []

/-- boolf/methods/wiki_table_row/__init__.py:16-87; the parameters are `decimal_length` and the functions `format(_, '.20f')` and `format(_, '.20g')` for quotients -/
noncomputable def Boolf.wikiTableRow (decimalLength : Nat → Nat) (formatF formatG : Rat → List Char) (f : Boolf) (namesCell : List Char) : Except RowErr (List Char) := do
  if ¬ (← orOther f.isBlightless) then throw .blight
  if ¬ f.isRoot then throw .spread
  let vfract ← orOther f.valueFract
  let wfract ← orOther f.weightFract
  let vinterval ← vintervalOf vfract
  let winterval := wintervalOf wfract
  let vnum := vfract.num
  let vden := vfract.den
  let fractionFont := fractionFontSize (decimalLength vnum.toNat) (decimalLength vden)
  let wnum := wfract.num
  let wden := wfract.den
  let length : Nat := 2 ^ f.valency
  let reducingFactor : Rat := (length : Rat) / (wden : Rat)
  let wnumBig := ((wnum : Rat) * reducingFactor).floor
  let vdec := (formatF ((vnum : Rat) / (vden : Rat))).drop 1
  let wdec := (formatG ((wnum : Rat) / (wden : Rat))).drop 1
  let zhegalkin ← orOther f.zhe
  let zhegalkinOddness := if zhegalkin % 2 ≠ 0 then "odd".toList else "even".toList
  let zhegalkinFont := zhegalkinFontSize (decimalLength zhegalkin)
  let bundles ← orOther f.bundles
  let d : Dict String (List Char) := [("zhegalkin", natStr zhegalkin), ("zhegalkin_oddness", zhegalkinOddness), ("zhegalkin_font_size", zhegalkinFont),
    ("vnum", intStr vnum), ("vden", natStr vden), ("vdec", vdec), ("vinterval", vinterval),
    ("wnum", intStr wnum), ("wden", natStr wden), ("wdec", wdec), ("winterval", winterval),
    ("wnum_big", intStr wnumBig), ("wden_big", natStr length), ("valency", natStr f.valency), ("fraction_font_size", fractionFont), ("names_cell", namesCell),
    ("number_of_bundles", natStr bundles.length), ("unibundle_class", if bundles.length = 1 then " uni".toList else [])]
  orOther (substitute rowTemplate d)

end Verif.BF
