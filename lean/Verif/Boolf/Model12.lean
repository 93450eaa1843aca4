import Verif.Boolf.Model11

/-!
# Model of `Boolf` (boolf/), part 12: equivalence classes divided into smaller ones
-/

namespace Verif.BF
open Verif.Py Verif.BV Verif.P Verif.W Verif.SP
open Verif.A hiding Mat

/-- python `min(l)` of a list of natural numbers; `ValueError` for an empty one -/
def pyMinNat : List Nat → Except Err Nat
  | [] => .error .valueError
  | x :: xs => .ok (xs.foldl min x)

/-- `boolf.faction_minrep.zhe`, boolf/methods/_ec/ec_family_splinters/__init__.py:11, boolf/methods/_ec/ec_clan_factions/__init__.py:11 -/
noncomputable def Boolf.factionRepZhe (f : Boolf) : Except Err Nat := do
  match ← f.factionMinrep with
  | some rep => rep.zhe
  | none => .error .attributeError

/-- boolf/methods/_ec/ec_family_splinters/__init__.py:10-12 and boolf/methods/_ec/ec_clan_factions/__init__.py:10-12 for the remaining functions -/
noncomputable def groupLoop : List Boolf → Dict Nat (List Nat) → Except Err (Dict Nat (List Nat))
  | [], raw => .ok raw
  | boolf :: rest, raw => do
    let factionRep ← boolf.factionRepZhe
    let zhe ← boolf.zhe
    groupLoop rest (raw.set factionRep (((raw.get? factionRep).getD []) ++ [zhe]))

/-- boolf/methods/_ec/ec_family_splinters/__init__.py:16-19 for the remaining keys -/
def splinterLoop (raw : Dict Nat (List Nat)) : List Nat → Dict Nat (List Nat) → Except Err (Dict Nat (List Nat))
  | [], result => .ok result
  | factionRep :: rest, result => do
    let splinterZhes := sorted (← dictGet raw factionRep)
    let splinterRep ← pyMinNat splinterZhes
    splinterLoop raw rest (result.set splinterRep splinterZhes)

/-- boolf/methods/_ec/ec_family_splinters/__init__.py:4-21 -/
noncomputable def Boolf.ecFamilySplinters (f : Boolf) : Except Err (Dict Nat (List Nat)) := do
  let family ← f.ecFamily
  let raw ← groupLoop (family.part.blockLabels.map Prod.snd) []
  splinterLoop raw (sorted raw.keys) []

/-- boolf/methods/_ec/ec_clan_factions/__init__.py:16-19 for the remaining keys -/
def factionsLoop (raw : Dict Nat (List Nat)) : List Nat → Dict Nat (List Nat) → Except Err (Dict Nat (List Nat))
  | [], result => .ok result
  | factionRep :: rest, result => do
    let factionZhes := sorted (← dictGet raw factionRep)
    if factionRep = (← pyMinNat factionZhes) then factionsLoop raw rest (result.set factionRep factionZhes)
    else .error .assertion

/-- boolf/methods/_ec/ec_clan_factions/__init__.py:4-21.  (Line 6 does not set `suppress_abbreviation`, so `ec_clan` is not recursive.) -/
noncomputable def Boolf.ecClanFactions (f : Boolf) (arity : Option Int) : Except Err (Dict Nat (List Nat)) := do
  let clan ← f.ecClan 1 arity false
  let raw ← groupLoop (clan.part.blockLabels.map Prod.snd) []
  factionsLoop raw (sorted raw.keys) []

end Verif.BF
