import Verif.Boolf.Model5
import Mathlib.Data.List.Lex
import Mathlib.Data.Prod.Lex
import Mathlib.Data.Char

/-!
# Model of `Boolf` (boolf/), part 21: comparison of layered tables, swans
-/

namespace Verif.BF
open Verif.Py Verif.BV Verif.P Verif.W
open Verif.A hiding Mat

/-- a row of three entries, compared like a python list or tuple -/
abbrev Row (α β γ : Type) : Type := α ×ₗ β ×ₗ γ

def mkRow {α β γ : Type} (a : α) (b : β) (c : γ) : Row α β γ := toLex (a, toLex (b, c))

def Row.third {α β γ : Type} (r : Row α β γ) : γ := (ofLex (ofLex r).2).2

/-- boolf/a/layered_is_greater/__init__.py:4-21, for lists of lists of integers; `sort_together` sorts the two rows of three entries. -/
def layeredIsGreater (a b : List (List Int)) : Except Err Bool :=
  if a = b then .ok false
  else
    let aSums := a.map List.sum
    let bSums := b.map List.sum
    let sorted := [mkRow aSums.sum aSums a, mkRow bSums.sum bSums b].insertionSort (· ≤ ·)
    match sorted[1]? with
    | some row => .ok (decide (row.third = a))
    | none => .error .indexError

/-- boolf/a/sort_each_layer/__init__.py:1-5 -/
def sortEachLayer (layered : List (List Int)) : List (List Int) := layered.map fun layer => layer.insertionSort (· ≤ ·)

/-- boolf/a/boolfs_to_swan/__init__.py:9-18 for one function.  The last two entries of a reflected row are left out; they are determined by the first two. -/
def Boolf.swanRow (boolf : Boolf) (verophile : Bool) : Except Err (Row (List Nat) (List (List Nat)) (List Char)) := do
  let layeredWeight ← boolf.layeredWeight
  let layeredTT ← boolf.layeredTT
  let tt ← (← boolf.tt).pretty
  return if verophile then mkRow layeredWeight layeredTT tt else mkRow layeredWeight.reverse (layeredTT.reverse.map List.reverse) tt

/-- boolf/a/boolfs_to_swan/__init__.py:1-33, except for the printing -/
noncomputable def boolfsToSwan (boolfs : List Boolf) (verophile : Bool) : Except Err Boolf := do
  let rows ← boolfs.mapM fun boolf => boolf.swanRow verophile
  let rows := rows.insertionSort (· ≤ ·)
  match if verophile then rows.getLast? else rows.head? with
  | some row => newTT (.str row.third)
  | none => .error .indexError

end Verif.BF
