import Verif.Boolf.Model9
import Verif.SetPart.Props5

/-!
# Model of `Boolf` (boolf/), part 10: equivalence classes under negation and permutation of the atoms

The elements of the partitions are natural numbers, or pairs or triples of natural numbers.  A tuple is represented by its place in the lexicographically
sorted list of all tuples of the domain (`SetPart` uses only equality and order of the elements); the ranges of the entries are part of the result.
The labels of the partitions are `Boolf` objects; no label is inflated, and for those equality as structures is the equality of boolf/__init__.py:168-169.
-/

namespace Verif.BF
open Verif.Py Verif.BV Verif.P Verif.W Verif.SP
open Verif.A hiding Mat

/-! ## arrangements and choices -/

/-- `itertools.permutations(l)` (python library); the first argument bounds the depth -/
def permutationsAux {α : Type} : Nat → List α → List (List α)
  | 0, _ => [[]]
  | n + 1, l => (List.range l.length).flatMap fun i => match l[i]? with
    | some x => (permutationsAux n (l.eraseIdx i)).map (x :: ·)
    | none => []

/-- `itertools.permutations(l)` (python library): first all those beginning with the first entry, and so on -/
def permutations {α : Type} (l : List α) : List (List α) := permutationsAux l.length l

/-- `itertools.combinations(l, k)` (python library) -/
def combinations {α : Type} : List α → Nat → List (List α)
  | _, 0 => [[]]
  | [], _ + 1 => []
  | x :: l, k + 1 => (combinations l k).map (x :: ·) ++ combinations l (k + 1)

/-- a/rev_colex_perms/__init__.py:4-11 -/
def revColexPerms (n : Nat) : List (List Nat) := (permutations (List.range n)).foldl (fun result p => p.reverse :: result) []

/-! ## partitions with labels -/

/-- A partition of tuples with `dims[i]` possible entries at place `i` (for a single place: of natural numbers), and its attribute `glove_compartment`. -/
structure EcPart where
  part : SetPart Boolf
  dims : List Nat
  combos : Option (List (List Nat)) := none

/-- the place of a tuple in the lexicographically sorted list of tuples -/
def code (dims tuple : List Nat) : Nat := (dims.zip tuple).foldl (fun r dt => r * dt.1 + dt.2) 0

/-- `range(n)` as the domain of a partition -/
def domainOf (dims : List Nat) : Domain := .finite ((List.range dims.prod).map Int.ofNat)

/-- A loop that calculates a label for each index and adds it to an element, with `add_label_to_element` (set_part/methods/block_labels/__init__.py:27-43). -/
noncomputable def labelElements {α : Type} (element : α → Nat) (label : α → Except Err Boolf) : List α → SetPart Boolf → Except Err (SetPart Boolf)
  | [], part => .ok part
  | i :: rest, part => do
    let boolf ← label i
    match part.addLabelToElement (element i : Int) boolf with
    | (.ok _, part) => labelElements element label rest part
    | (.error e, _) => .error e

/-! ## ec_family -/

/-- boolf/methods/_ec/ec_family/__init__.py:22-25 -/
noncomputable def Boolf.familyMember (f : Boolf) (i : Nat) : Except Err Boolf := do
  let negpatRaw := (← BV.mk { intval := some (i : Int), length := some (f.valency : Int) }).exposet
  let negpat ← negpatRaw.mapM (entryAt (f.atomvals.map Int.ofNat))
  let signed ← logicNegateVector (f.atomvals.map Int.ofNat) none (some negpat)
  f.apply signed

/-- boolf/methods/_ec/ec_family/__init__.py:8-28 -/
noncomputable def Boolf.ecFamily (f : Boolf) : Except Err EcPart :=
  if f.isConstant then do
    let part ← newPart [] (domainOf [1])
    return { part := ← labelElements id (fun _ => .ok f) [0] part, dims := [1] }
  else if f.adicity ≤ 10 then do
    let part ← newPart [] (domainOf [2 ^ f.valency])
    return { part := ← labelElements id f.familyMember (List.range (2 ^ f.valency)) part, dims := [2 ^ f.valency] }
  else .error .argNotFeasible

/-! ## ec_faction -/

/-- boolf/methods/_ec/ec_faction/__init__.py:28-39 and boolf/methods/_ec/ec_clan/__init__.py:30-41: the arity, and whether the elements are numbered by all
permutations of the places (`'short'`, `'redundant'`) or by choices of places and permutations of the atoms (`'long'`, `'abbreviated'`) -/
def Boolf.ecCase (f : Boolf) (arity : Option Int) (suppress : Bool) : Except Err (Nat × Bool) := do
  let arity ← match arity with
    | none => .ok (f.adicity : Int)
    | some a => if a ≥ f.adicity then .ok a else .error .argTooSmall
  return (arity.toNat, decide (arity = f.valency) || suppress)

/-- boolf/methods/_ec/ec_faction/__init__.py:13-24 -/
noncomputable def Boolf.ecFactionConstant (f : Boolf) (arity : Option Int) (suppress : Bool) : Except Err EcPart :=
  let arity := arity.getD 0
  if suppress && decide (arity > 0) then do
    let dims := [Nat.factorial arity.toNat]
    let part ← newPart [(List.range dims.prod).map Int.ofNat] (domainOf dims)
    return { part := ← labelElements id (fun _ => .ok f) [0] part, dims := dims }
  else do
    let dims := if arity = 0 then [1] else [1, 1]
    let part ← newPart [[0]] (domainOf dims)
    return { part := ← labelElements id (fun _ => .ok f) [0] part, dims := dims }

/-- boolf/methods/_ec/ec_faction/__init__.py:43-49 -/
noncomputable def Boolf.ecFactionShort (f : Boolf) (arity : Nat) : Except Err EcPart := do
  let perms := revColexPerms arity
  let dims := [Nat.factorial arity]
  let part ← newPart [] (domainOf dims)
  return { part := ← labelElements (fun p : List Nat × Nat => code dims [p.2]) (fun p => f.applySigperm (.list (p.1.map Int.ofNat))) perms.zipIdx part, dims := dims }

/-- boolf/methods/_ec/ec_faction/__init__.py:63-64, the pairs of (combo, c) and (perm, n) in the order of the loops -/
def comboPermPairs (combos perms : List (List Nat)) : List ((List Nat × Nat) × (List Nat × Nat)) :=
  combos.zipIdx.flatMap fun c => perms.zipIdx.map fun n => (c, n)

/-- boolf/methods/_ec/ec_faction/__init__.py:65-66 -/
noncomputable def Boolf.factionMember (f : Boolf) (perm combo : List Nat) : Except Err Boolf := do
  let variation ← (← mkPerm (.seq perm)).applyOnVector combo
  f.apply (variation.map Int.ofNat)

/-- boolf/methods/_ec/ec_faction/__init__.py:53-69 -/
noncomputable def Boolf.ecFactionLong (f : Boolf) (arity : Nat) : Except Err EcPart := do
  let combos := combinations (List.range arity) f.valency
  let perms := revColexPerms f.valency
  let dims := [Nat.factorial f.valency, combos.length]
  let part ← newPart [] (domainOf dims)
  let part ← labelElements (fun i : (List Nat × Nat) × (List Nat × Nat) => code dims [i.2.2, i.1.2])
      (fun i => f.factionMember i.2.1 i.1.1) (comboPermPairs combos perms) part
  return { part := part, dims := dims, combos := some combos }

/-- boolf/methods/_ec/ec_faction/__init__.py:11-71 -/
noncomputable def Boolf.ecFaction (f : Boolf) (arity : Option Int := none) (suppress : Bool := false) : Except Err EcPart :=
  if f.isConstant then f.ecFactionConstant arity suppress
  else if f.adicity ≤ 5 then do
    let (arity, short) ← f.ecCase arity suppress
    if short then f.ecFactionShort arity else f.ecFactionLong arity
  else .error .argNotFeasible

/-! ## ec_clan -/

/-- boolf/methods/_ec/ec_clan/__init__.py:57 and 79 -/
def sigpermOf (m : Nat) (perm : List Nat) : Except Err SG.SigPerm := do
  let binv ← BV.mk { intval := some (m : Int) }
  SG.new { valneg := some (.binv binv), perm := some (.perm (← mkPerm (.seq perm))) }

/-- boolf/methods/_ec/ec_clan/__init__.py:57-58 -/
noncomputable def Boolf.clanMember (f : Boolf) (m : Nat) (perm : List Nat) : Except Err Boolf := do
  f.applySigperm (.sigperm (← sigpermOf m perm))

/-- boolf/methods/_ec/ec_clan/__init__.py:79-81 -/
noncomputable def Boolf.clanComboMember (f : Boolf) (m : Nat) (perm combo : List Nat) : Except Err Boolf := do
  let sigperm ← sigpermOf m perm
  f.apply (← sigperm.applyOnVector (combo.map Int.ofNat))

/-- boolf/methods/_ec/ec_clan/__init__.py:45-59.  (The permutations and vectors, built before the loops, are built here when they are used.) -/
noncomputable def Boolf.ecClanRedundant (f : Boolf) (arity : Nat) : Except Err EcPart := do
  let perms := revColexPerms arity
  let dims := [2 ^ arity, Nat.factorial arity]
  let part ← newPart [] (domainOf dims)
  let part ← labelElements (fun i : Nat × (List Nat × Nat) => code dims [i.1, i.2.2])
      (fun i => f.clanMember i.1 i.2.1)
      ((List.range (2 ^ arity)).flatMap fun m => perms.zipIdx.map fun n => (m, n)) part
  return { part := part, dims := dims }

/-- boolf/methods/_ec/ec_clan/__init__.py:63-84 -/
noncomputable def Boolf.ecClanAbbreviated (f : Boolf) (arity : Nat) : Except Err EcPart := do
  let combos := combinations (List.range arity) f.valency
  let perms := revColexPerms f.valency
  let dims := [2 ^ f.valency, Nat.factorial f.valency, combos.length]
  let part ← newPart [] (domainOf dims)
  let part ← labelElements (fun i : (List Nat × Nat) × Nat × (List Nat × Nat) => code dims [i.2.1, i.2.2.2, i.1.2])
      (fun i => f.clanComboMember i.2.1 i.2.2.1 i.1.1)
      (combos.zipIdx.flatMap fun c => (List.range (2 ^ f.valency)).flatMap fun m => perms.zipIdx.map fun n => (c, m, n)) part
  return { part := part, dims := dims, combos := some combos }

/-- boolf/methods/_ec/ec_clan/__init__.py:13-86; the first argument bounds the depth of the recursion (line 26).  `2 ** None` is a `TypeError`; for a negative
arity `2 ** arity` is a float, and `range` of it a `TypeError` (for the constant `False` it is not evaluated). -/
noncomputable def Boolf.ecClan : Nat → Boolf → Option Int → Bool → Except Err EcPart
  | 0, _, _, _ => .error .diverges
  | fuel + 1, f, arity, suppress =>
    if f.isConstant then
      if !suppress then do
        let dims := if arity = none ∨ arity = some 0 then [1, 1] else [1, 1, 1]
        let part ← newPart [] (domainOf dims)
        return { part := ← labelElements id (fun _ => .ok f) [0] part, dims := dims }
      else do
        let fullspots ← if ← f.root.getItem 0 then
            match arity with
            | none => .error .typeError
            | some a => if a < 0 then .error .typeError else .ok ((List.range (2 ^ a.toNat)).map Int.ofNat)
          else .ok []
        let atomvals ← match arity with
          | none => .error .typeError
          | some a => .ok ((List.range a.toNat).map Int.ofNat)
        let boolf ← newFullspots fullspots (some atomvals) none true
        boolf.ecClan fuel arity suppress
    else if f.adicity ≤ 5 then do
      let (arity, redundant) ← f.ecCase arity suppress
      if redundant then f.ecClanRedundant arity else f.ecClanAbbreviated arity
    else .error .argNotFeasible

end Verif.BF
