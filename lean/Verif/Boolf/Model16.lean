import Verif.A.Sort
import Verif.Boolf.Model14
import Verif.Boolf.Model15

/-!
# Model of `Boolf` (boolf/), part 16: the matrix of a clan
-/

namespace Verif.BF
open Verif.Py Verif.BV Verif.P Verif.W Verif.SP
open Verif.A hiding Mat

/-! ## sets in dictionaries -/

/-- `d[k].add(x)` for a `defaultdict(set)`; a set is a list without duplicates -/
def addTo {α β : Type} [DecidableEq α] [DecidableEq β] (d : Dict α (List β)) (k : α) (x : β) : Dict α (List β) :=
  let s := (d.get? k).getD []
  d.set k (if x ∈ s then s else s ++ [x])

/-- boolf/methods/_ec/ec_clan_matrix/__init__.py:11-15; `sort` is `sorted` for the elements of the sets -/
def dictOfLists {β : Type} (sort : List β → List β) (d : Dict Nat (List β)) : Except Err (Dict Nat (List β)) := do
  let items ← (sorted d.keys).mapM fun key => do return (key, sort (← dictGet d key))
  return Dict.ofPairs items

/-- the order of triples, python's `<=` for tuples -/
def tripleLe (x y : Nat × Nat × Nat) : Prop := x.1 < y.1 ∨ x.1 = y.1 ∧ (x.2.1 < y.2.1 ∨ x.2.1 = y.2.1 ∧ x.2.2 ≤ y.2.2)

instance : DecidableRel tripleLe := fun x y => by unfold tripleLe; infer_instance

/-- python `sorted(l)` for triples -/
def sortedTriples (l : List (Nat × Nat × Nat)) : List (Nat × Nat × Nat) := l.insertionSort tripleLe

/-! ## the parts of `ec_clan_matrix` -/

/-- boolf/methods/_ec/ec_clan_matrix/__init__.py:33-38 for the remaining indices -/
def rowWeight : List Nat → Option Nat → Except Err (Option Nat)
  | [], weight => .ok weight
  | zhe :: rest, weight => do
    let w := (← BV.mk { intval := some (zhe : Int) }).weight
    match weight with
    | some v => if w = v then rowWeight rest (some v) else .error .assertion
    | none => rowWeight rest (some w)

/-- boolf/methods/_ec/ec_clan_matrix/__init__.py:29-39 for the remaining factions -/
def rowWeights (rows : Dict Nat (List Nat)) : List Nat → Dict Nat (Option Nat) → Except Err (Dict Nat (Option Nat))
  | [], d => .ok d
  | rep :: rest, d => do
    let weight ← rowWeight (← dictGet rows rep) none
    rowWeights rows rest (d.set rep weight)

/-- the five dictionaries of boolf/methods/_ec/ec_clan_matrix/__init__.py:43-47 -/
structure IndexSets where
  factionKeynegs : Dict Nat (List Nat) := []
  familyPerms : Dict Nat (List Nat) := []
  zheKeynegs : Dict Nat (List Nat) := []
  zheValnegs : Dict Nat (List Nat) := []
  zheTriples : Dict Nat (List (Nat × Nat × Nat)) := []

/-- boolf/methods/_ec/ec_clan_matrix/__init__.py:56-60 -/
def IndexSets.add (s : IndexSets) (factionRep familyRep zhe keyneg perm valneg : Nat) : IndexSets where
  factionKeynegs := addTo s.factionKeynegs factionRep keyneg
  familyPerms := addTo s.familyPerms familyRep perm
  zheKeynegs := addTo s.zheKeynegs zhe keyneg
  zheValnegs := addTo s.zheValnegs zhe valneg
  zheTriples := addTo s.zheTriples zhe (keyneg, perm, valneg)

/-- boolf/methods/_ec/ec_clan_matrix/__init__.py:53-60 for the remaining pairs of a block; for the pairs see `symmetricSpotsLoop` -/
def pairsLoop (count factionRep familyRep zhe : Nat) : List Int → IndexSets → Except Err IndexSets
  | [], s => .ok s
  | element :: rest, s => do
    let sigPerm ← SG.new { valnegIndex := some (element / count), permIndex := some (element % count) }
    let keyneg ← sigPerm.keynegIndex
    pairsLoop count factionRep familyRep zhe rest (s.add factionRep familyRep zhe keyneg (element % count).toNat (element / count).toNat)

/-- boolf/methods/_ec/ec_clan_matrix/__init__.py:50-60 for the remaining indices of a splinter -/
noncomputable def memberLoop (clan : EcPart) (factionRep familyRep : Nat) : List Nat → IndexSets → Except Err IndexSets
  | [], s => .ok s
  | zhe :: rest, s => do
    let boolf ← new { zhe := some (zhe : Int) }
    let block ← labelledBlock clan.part boolf
    memberLoop clan factionRep familyRep rest (← pairsLoop (clan.dims.getLastD 1) factionRep familyRep zhe block s)

/-- boolf/methods/_ec/ec_clan_matrix/__init__.py:49-60 for the remaining splinters -/
noncomputable def splintersLoop (clan : EcPart) : Dict (Nat × Nat) (List Nat) → IndexSets → Except Err IndexSets
  | [], s => .ok s
  | ((factionRep, familyRep), splinter) :: rest, s => do splintersLoop clan rest (← memberLoop clan factionRep familyRep splinter s)

/-- boolf/methods/_ec/ec_clan_matrix/__init__.py:64-67 -/
def permsToFamilies (familyPerms : Dict Nat (List Nat)) : Except Err Unit :=
  let d : Dict (List Nat) (List Nat) := familyPerms.foldl (fun d e => addTo d (sorted e.2) e.1) []
  if d.keys.length = d.values.length then .ok () else .error .assertion

/-- boolf/methods/_ec/ec_clan_matrix/__init__.py:80-81 for the remaining factions -/
def splinterSizes (splinters : Dict (Nat × Nat) (List Nat)) (familyRep : Nat) : List Nat → Dict Nat Nat → Except Err (Dict Nat Nat)
  | [], d => .ok d
  | rep :: rest, d => do
    let splinter ← dictGet splinters (rep, familyRep)
    splinterSizes splinters familyRep rest (d.set rep splinter.length)

/-- `Boolf(zhe=zhe).perm_symmetry_partition.intval`, boolf/methods/_ec/ec_clan_matrix/__init__.py:88 and 100 -/
noncomputable def symIntval (zhe : Nat) : Except Err Nat := do
  let boolf ← new { zhe := some (zhe : Int) }
  let part ← boolf.permSymmetryPartition
  return part.intval.1

/-- boolf/methods/_ec/ec_clan_matrix/__init__.py:86-89 for the remaining factions -/
noncomputable def needsReordering (sizes : Dict Nat Nat) : List Nat → List Nat → Except Err (List Nat)
  | [], result => .ok result
  | rep :: rest, result => do
    if (← dictGet sizes rep) > 1 then
      if (← symIntval rep) ≠ 0 then needsReordering sizes rest (if rep ∈ result then result else result ++ [rep])
      else needsReordering sizes rest result
    else needsReordering sizes rest result

/-- the two lists of boolf/methods/_ec/ec_clan_matrix/__init__.py:101 (other numbers of lists can not be unpacked) -/
def unpackTwo : List (List Nat) → Except Err (List Nat × List Nat)
  | [a, b] => .ok (a, b)
  | _ => .error .valueError

/-- boolf/methods/_ec/ec_clan_matrix/__init__.py:96-102 for the remaining factions -/
noncomputable def symsetLoop (splinters : Dict (Nat × Nat) (List Nat)) (needs : List Nat) (familyRep : Nat) :
    List Nat → Dict (List Nat) (Dict Nat (List Nat)) → Except Err (Dict (List Nat) (Dict Nat (List Nat)))
  | [], d => .ok d
  | rep :: rest, d =>
    if rep ∈ needs then do
      let zhes ← dictGet splinters (rep, familyRep)
      let syms ← zhes.mapM symIntval
      let (syms, zhes) ← unpackTwo (← sortTogetherAll [syms, zhes])
      symsetLoop splinters needs familyRep rest (d.set syms (((d.get? syms).getD []).set rep zhes))
    else symsetLoop splinters needs familyRep rest d

/-- `rows[i, :] = l` (numpy): a list of length one would be repeated.  (The entries are below `2 ** 32`, so they are numbers of numpy.) -/
def assignRow (size : Nat) (l : List Nat) : Except Err (List Nat) :=
  if l.length = size then .ok l
  else if l.length = 1 then .ok (List.replicate size (l.headD 0))
  else .error .valueError

/-- boolf/methods/_ec/ec_clan_matrix/__init__.py:112-114 for the remaining rows -/
def setRows (familyRep : Nat) : List (Nat × List Nat) → Dict (Nat × Nat) (List Nat) → Dict (Nat × Nat) (List Nat)
  | [], d => d
  | (rep, splinter) :: rest, d => setRows familyRep rest (d.set (rep, familyRep) splinter)

/-- boolf/methods/_ec/ec_clan_matrix/__init__.py:104-114 for the remaining sets of symmetries -/
def alignLoop (familyRep : Nat) : Dict (List Nat) (Dict Nat (List Nat)) → Dict (Nat × Nat) (List Nat) → Except Err (Dict (Nat × Nat) (List Nat))
  | [], result => .ok result
  | (symset, group) :: rest, result => do
    let reps := sorted group.keys
    let rows ← reps.mapM fun rep => do assignRow symset.length (← dictGet group rep)
    let sortedRows ← firstOf (← sortColsTogether false [⟨rows, symset.length⟩])
    alignLoop familyRep rest (setRows familyRep (reps.zip sortedRows.rows) result)

/-- boolf/methods/_ec/ec_clan_matrix/__init__.py:95-114 for the remaining families -/
noncomputable def reorderLoop (splinters : Dict (Nat × Nat) (List Nat)) (needs factionReps : List Nat) :
    List Nat → Dict (Nat × Nat) (List Nat) → Except Err (Dict (Nat × Nat) (List Nat))
  | [], result => .ok result
  | familyRep :: rest, result => do
    let symsets ← symsetLoop splinters needs familyRep factionReps []
    reorderLoop splinters needs factionReps rest (← alignLoop familyRep symsets result)

/-- the results of `ec_clan_matrix`, boolf/methods/_ec/ec_clan_matrix/__init__.py:126-129 -/
structure ClanMatrix where
  factionReps : List Nat
  familyReps : List Nat
  factionDict : Dict Nat (List Nat)
  familyDict : Dict Nat (List Nat)
  splinterDict : Dict (Nat × Nat) (List Nat)
  sizes : Dict Nat Nat
  lcm : Int
  weights : Dict Nat (Option Nat)
  factionKeynegs : Dict Nat (List Nat)
  familyPerms : Dict Nat (List Nat)
  zheKeynegs : Dict Nat (List Nat)
  zheValnegs : Dict Nat (List Nat)
  zheTriples : Dict Nat (List (Nat × Nat × Nat))
deriving DecidableEq

/-- boolf/methods/_ec/ec_clan_matrix/__init__.py:18-129.  For the parameters see `Boolf.ecClanPartitioned`. -/
noncomputable def Boolf.ecClanMatrix (order : List Boolf → List Boolf) (orderPerm orderNeg : List (List Boolf) → List (List Boolf)) (f : Boolf) :
    Except Err ClanMatrix :=
  if f.isRoot then do
    let clan ← f.ecClan 1 none false
    let p ← f.ecClanPartitioned order orderPerm orderNeg
    let weights ← rowWeights p.factionDict p.factionReps []
    let sets ← splintersLoop clan p.splinterDict {}
    permsToFamilies sets.familyPerms
    let sizes ← splinterSizes p.splinterDict (← pyMinNat p.familyReps) p.factionReps []
    let needs ← needsReordering sizes p.factionReps []
    let splinterDict ← reorderLoop p.splinterDict needs p.factionReps p.familyReps p.splinterDict
    let factionKeynegs ← dictOfLists sorted sets.factionKeynegs
    let familyPerms ← dictOfLists sorted sets.familyPerms
    let zheKeynegs ← dictOfLists sorted sets.zheKeynegs
    let zheValnegs ← dictOfLists sorted sets.zheValnegs
    let zheTriples ← dictOfLists sortedTriples sets.zheTriples
    let lcm ← multiLcm (sizes.values.map Int.ofNat)
    return ⟨p.factionReps, p.familyReps, p.factionDict, p.familyDict, splinterDict, sizes, lcm, weights, factionKeynegs, familyPerms, zheKeynegs, zheValnegs, zheTriples⟩
  else .error .notSpreadless

end Verif.BF
