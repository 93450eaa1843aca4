import Verif.Boolf.Model13

/-!
# Model of `Boolf` (boolf/), part 14: clans divided into factions and families
-/

namespace Verif.BF
open Verif.Py Verif.BV Verif.P Verif.W Verif.SP
open Verif.A hiding Mat

/-- python `sorted(l)` for functions: the first element is put in the sorted rest.  (Only `<` is used, boolf/methods/str/__init__.py:35-36.) -/
noncomputable def insertBoolf (x : Boolf) : List Boolf → Except Err (List Boolf)
  | [] => .ok [x]
  | y :: ys => do if ← y.lt x then return y :: (← insertBoolf x ys) else return x :: y :: ys

/-- python `sorted(l)` for functions -/
noncomputable def sortBoolfs : List Boolf → Except Err (List Boolf)
  | [] => .ok []
  | x :: xs => do insertBoolf x (← sortBoolfs xs)

/-- `==` of tuples of functions.  (In a set also the hashes are compared; they belong to the strings, and those of equal functions are equal.) -/
def tupleEq : List Boolf → List Boolf → Bool
  | [], [] => true
  | x :: xs, y :: ys => x.eq y && tupleEq xs ys
  | _, _ => false

/-- the elements of `set(l)` for functions, without an order of iteration -/
def setOfBoolfs (l : List Boolf) : List Boolf := l.foldl (fun s x => if s.any (·.eq x) then s else s ++ [x]) []

/-- boolf/methods/_ec/ec_clan_partitioned/__init__.py:14-21 (with `ec_faction`) and 25-32 (with `ec_family`), for the remaining functions -/
noncomputable def tuplesLoop (ec : Boolf → Except Err EcPart) (cardinality : Nat) : List Boolf → List (List Boolf) → Nat → Except Err (List (List Boolf))
  | [], tuples, _ => .ok tuples
  | boolf :: rest, tuples, sum => do
    let tuple ← sortBoolfs ((← ec boolf).part.blockLabels.map Prod.snd)
    if tuples.any (tupleEq tuple) then tuplesLoop ec cardinality rest tuples sum
    else if sum + tuple.length = cardinality then return tuples ++ [tuple]
    else tuplesLoop ec cardinality rest (tuples ++ [tuple]) (sum + tuple.length)

/-- boolf/methods/_ec/ec_clan_partitioned/__init__.py:36-41 and 43-48, for the remaining tuples -/
noncomputable def minToSet : List (List Boolf) → Dict Nat (List Nat) → Except Err (Dict Nat (List Nat))
  | [], d => .ok d
  | tuple :: rest, d => do
    let zhes := (← tuple.mapM Boolf.zhe).dedup
    minToSet rest (d.set (← pyMinNat zhes) zhes)

/-- the five results of `ec_clan_partitioned`, boolf/methods/_ec/ec_clan_partitioned/__init__.py:70 -/
structure Partitioned where
  factionReps : List Nat
  familyReps : List Nat
  factionDict : Dict Nat (List Nat)
  familyDict : Dict Nat (List Nat)
  splinterDict : Dict (Nat × Nat) (List Nat)
deriving DecidableEq

/-- boolf/methods/_ec/ec_clan_partitioned/__init__.py:55-58 for the remaining pairs -/
def crossLoop (permSets negSets : Dict Nat (List Nat)) : List (Nat × Nat) → Dict (Nat × Nat) (List Nat) → Except Err (Dict (Nat × Nat) (List Nat))
  | [], d => .ok d
  | (permMin, negMin) :: rest, d => do
    let permSet ← dictGet permSets permMin
    let negSet ← dictGet negSets negMin
    crossLoop permSets negSets rest (d.set (permMin, negMin) (sorted (permSet.filter fun z => negSet.contains z)))

/-- boolf/methods/_ec/ec_clan_partitioned/__init__.py:62-64 and 66-68 for the remaining keys -/
def sortedSets (sets : Dict Nat (List Nat)) : List Nat → Dict Nat (List Nat) → Except Err (Dict Nat (List Nat))
  | [], d => .ok d
  | k :: rest, d => do
    let s ← dictGet sets k
    sortedSets sets rest (d.set k (sorted s))

/-- boolf/methods/_ec/ec_clan_partitioned/__init__.py:4-70.  The parameters are the orders in which python iterates over a set of functions and over the
two sets of tuples. -/
noncomputable def Boolf.ecClanPartitioned (order : List Boolf → List Boolf) (orderPerm orderNeg : List (List Boolf) → List (List Boolf)) (f : Boolf) :
    Except Err Partitioned := do
  let negperm ← f.ecClan 1 none false
  let negpermSet := setOfBoolfs (negperm.part.blockLabels.map Prod.snd)
  let cardinality := negpermSet.length
  let permTuples ← tuplesLoop (fun g => g.ecFaction none false) cardinality (order negpermSet) [] 0
  let negTuples ← tuplesLoop (fun g => g.ecFamily) cardinality (order negpermSet) [] 0
  let permSets ← minToSet (orderPerm permTuples) []
  let negSets ← minToSet (orderNeg negTuples) []
  let factionReps := sorted permSets.keys
  let familyReps := sorted negSets.keys
  let splinterDict ← crossLoop permSets negSets (factionReps ×ˢ familyReps) []
  let factionDict ← sortedSets permSets factionReps []
  let familyDict ← sortedSets negSets familyReps []
  return ⟨factionReps, familyReps, factionDict, familyDict, splinterDict⟩

end Verif.BF
