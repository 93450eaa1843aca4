import Verif.SigPerm.Schoute
import Verif.Boolf.Props35

/-!
# Model of the scripts that build Cayley tables (perm/scripts/01_cayley, sig_perm/scripts/01_cayley, sig_perm/scripts/02_cayley_compare)

The scripts use permutations of 4 or 3 places; here the number `n` of places is an argument.  (So `24` and `6` become `n!`, and `8` becomes `2 ** n`.)
The elements of the partitions are pairs of indices, or pairs of pairs.  A pair is represented by its place in the sorted list of all pairs of the domain
(`SetPart` uses only equality and order of the elements).  The printing of examples is not modelled.
-/

namespace Verif.Cay
open Verif.Py Verif.BV Verif.P Verif.SP Verif.SG

/-! ## tables -/

/-- The loops over all pairs of entries: the label of a pair of keys is the key of the product
(perm/scripts/01_cayley/__main__.py:19-25, sig_perm/scripts/01_cayley/__main__.py:32-36 and 44-48, sig_perm/scripts/02_cayley_compare/__main__.py:40-44,
51-58 and 65-69). -/
def tableLoop {K V : Type} [DecidableEq K] (code : K → K → Nat) (product : V → V → Except Err V) (key : V → Except Err K) :
    List ((K × V) × (K × V)) → SetPart K → Except Err (SetPart K)
  | [], part => .ok part
  | ((idA, a), (idB, b)) :: rest, part => do
    let p ← product a b
    let idP ← key p
    match part.addLabelToElement (code idA idB : Int) idP with
    | (.ok _, part) => tableLoop code product key rest part
    | (.error e, _) => .error e

/-- all pairs of entries of a list: the first one changes slowly (nested loops, or `product(l, repeat=2)`) -/
def pairs {α : Type} (l : List α) : List (α × α) := l.flatMap fun a => l.map fun b => (a, b)

/-- A partition of pairs of keys without blocks, and the loops that label its elements
(perm/scripts/01_cayley/__main__.py:15-25, sig_perm/scripts/01_cayley/__main__.py:29-36 and 41-48, sig_perm/scripts/02_cayley_compare/__main__.py:38-44,
49-58 and 63-69). -/
def table {K V : Type} [DecidableEq K] (code : K → K → Nat) (product : V → V → Except Err V) (key : V → Except Err K) (ids : List K) (items : List (K × V)) :
    Except Err (SetPart K) := do
  let part ← newPart [] (.finite ((pairs ids).map fun ab => (code ab.1 ab.2 : Int)))
  tableLoop code product key (pairs items) part

/-! ## permutations -/

/-- perm/scripts/01_cayley/__main__.py:12-13, sig_perm/scripts/01_cayley/__main__.py:19-20, sig_perm/scripts/02_cayley_compare/__main__.py:18-19 -/
def permList (n : Nat) : Except Err (List Perm) := (BF.revColexPerms n).mapM fun l => mkPerm (.seq l)

/-- `perms.index(p)`: the first place with an entry equal to `p` (perm/__init__.py:97-102) -/
def indexIn (perms : List Perm) (p : Perm) : Except Err Nat := match perms.findIdx? (fun q => q.eq p) with
  | some i => .ok i
  | none => .error .valueError

/-- the place of a pair of indices below `n!` -/
def pairCode (n a b : Nat) : Nat := a * n.factorial + b

/-- perm/scripts/01_cayley/__main__.py:12-25 and sig_perm/scripts/01_cayley/__main__.py:41-48 -/
def permTable (n : Nat) : Except Err (SetPart Nat) := do
  let perms ← permList n
  table (pairCode n) Perm.mul (indexIn perms) (List.range n.factorial) (perms.zipIdx.map Prod.swap)

/-! ## signed permutations -/

/-- `bd[key] = make(key)` for the remaining keys, all of them new (python library `bidict`): a value that is already there raises `ValueDuplicationError`. -/
def fillBidict {K V : Type} (same : V → V → Bool) (make : K → Except Err V) : List K → List (K × V) → Except Err (List (K × V))
  | [], d => .ok d
  | k :: ks, d => do
    let v ← make k
    if d.any (fun e => same e.2 v) then .error .valueDuplication else fillBidict same make ks (d ++ [(k, v)])

/-- `bd.inverse[v]` (python library `bidict`) -/
def keyIn {K V : Type} (same : V → V → Bool) (d : List (K × V)) (v : V) : Except Err K := match d.find? (fun e => same e.2 v) with
  | some e => .ok e.1
  | none => .error .keyError

/-- Signed permutations that are the same key of a dict: they have the same hash, which is that of the string (sig_perm/__init__.py:134-135), and are equal
(117-126).  (Equal objects with different strings do not exist here, so that it does not matter which strings have the same hash.  `str` raises no exception, C62.) -/
def sameSig (s t : SigPerm) : Bool := (match s.str, t.str with | .ok a, .ok b => decide (a = b) | _, _ => false) && s.eq t

/-- Permutations that are the same key of a dict: they have the same hash, which is that of the string (perm/__init__.py:116-117), and are equal (97-102).
(Equal objects have the same string, C13, so that it does not matter which strings have the same hash.) -/
def samePerm (p q : Perm) : Bool := (match p.str, q.str with | .ok a, .ok b => decide (a = b) | _, _ => false) && p.eq q

/-- sig_perm/scripts/01_cayley/__main__.py:23, sig_perm/scripts/02_cayley_compare/__main__.py:22 -/
def idList (n : Nat) : List (Nat × Nat) := (List.range (2 ^ n)).flatMap fun m => (List.range n.factorial).map fun k => (m, k)

/-- the place of a pair of keys in `domain` -/
def idCode (n : Nat) (a b : Nat × Nat) : Nat := (a.1 * n.factorial + a.2) * (2 ^ n * n.factorial) + (b.1 * n.factorial + b.2)

/-- `l[i]` for a natural number `i` -/
def item {α : Type} (l : List α) (i : Nat) : Except Err α := match l[i]? with
  | some x => .ok x
  | none => .error .indexError

/-- sig_perm/scripts/01_cayley/__main__.py:27, sig_perm/scripts/02_cayley_compare/__main__.py:30 -/
def sigOf (binvs : List Binv) (perms : List Perm) (id : Nat × Nat) : Except Err SigPerm := do
  new { valneg := some (.binv (← item binvs id.1)), perm := some (.perm (← item perms id.2)) }

/-- sig_perm/scripts/01_cayley/__main__.py:21, sig_perm/scripts/02_cayley_compare/__main__.py:20 -/
def binvList (n : Nat) : Except Err (List Binv) := (List.range (2 ^ n)).mapM fun m : Nat => BV.mk { intval := some (m : Int) }

/-- The table of the products of signed permutations (sig_perm/scripts/01_cayley/__main__.py:19-36, sig_perm/scripts/02_cayley_compare/__main__.py:18-44). -/
def sigTable (n : Nat) : Except Err (SetPart (Nat × Nat)) := do
  let perms ← permList n
  let binvs ← binvList n
  let idToSigperm ← fillBidict sameSig (sigOf binvs perms) (idList n) []
  table (idCode n) SigPerm.mul (keyIn sameSig idToSigperm) (idList n) idToSigperm

/-- `tuple([tuple(row) for row in matrix])` -/
def tuples (m : SG.Mat) : List (List Int) := (List.range m.rows).map fun i => (List.range m.cols).map (m.get i)

/-- `np.array(tuples)` for `n` tuples of length `n` -/
def array (n : Nat) (t : List (List Int)) : SG.Mat := ⟨n, n, fun i j => (t.getD i []).getD j 0⟩

/-- The table of the products of matrices, for at least one place (sig_perm/scripts/02_cayley_compare/__main__.py:18-32 and 49-58). -/
def matTable (n : Nat) : Except Err (SetPart (Nat × Nat)) := do
  let perms ← permList n
  let binvs ← binvList n
  let idToMatrix ← fillBidict (fun s t => decide (s = t)) (fun id => do return tuples (← (← sigOf binvs perms id).matrix (some n))) (idList n) []
  table (idCode n) (fun a b => .ok (tuples ((array n a).dot (array n b)))) (keyIn (fun s t => decide (s = t)) idToMatrix) (idList n) idToMatrix

/-- The table of the products of cube vertex permutations (sig_perm/scripts/02_cayley_compare/__main__.py:18-33 and 63-69). -/
def cvpTable (n : Nat) : Except Err (SetPart (Nat × Nat)) := do
  let perms ← permList n
  let binvs ← binvList n
  let idToCvp ← fillBidict samePerm (fun id => do (← sigOf binvs perms id).schoutePerm) (idList n) []
  table (idCode n) Perm.mul (keyIn samePerm idToCvp) (idList n) idToCvp

/-! ## sign parts -/

/-- sig_perm/scripts/01_cayley/__main__.py:70-74 -/
def signCayley (n : Nat) (cayley : SetPart (Nat × Nat)) (an bn : Nat) : Except Err (List (List Nat)) :=
  (List.range (2 ^ n)).mapM fun am => (List.range (2 ^ n)).mapM fun bm =>
    match cayley.getLabelFromElement (idCode n (am, an) (bm, bn) : Int) with
    | some (pm, _) => .ok pm
    | none => .error .typeError

/-- sig_perm/scripts/01_cayley/__main__.py:67-89.  The matrix of a pair of moves is calculated where it is used.  (`sign_cayley_tuples_to_matrices` assigns
the matrices to the tuples of their rows; both are represented in the same way.) -/
def movedLoop (n : Nat) (cayley : SetPart (Nat × Nat)) : List (Nat × Nat) → SetPart (List (List Nat)) → Except Err (SetPart (List (List Nat)))
  | [], part => .ok part
  | (an, bn) :: rest, part => do
    let matrix ← signCayley n cayley an bn
    match part.addLabelToElement (pairCode n an bn : Int) matrix with
    | (.ok _, part) => movedLoop n cayley rest part
    | (.error e, _) => .error e

/-- sig_perm/scripts/01_cayley/__main__.py:102-107 for the remaining blocks; `block[0][0]` is the first entry of the first pair -/
def rowLoop (n : Nat) (moved : SetPart (List (List Nat))) : List (List Int) → Dict Nat (List (List Nat)) → Except Err (Dict Nat (List (List Nat)))
  | [], d => .ok d
  | block :: rest, d => match block, moved.getLabelFromBlock block with
    | x :: _, some matrix => rowLoop n moved rest (Dict.set d (x.toNat / n.factorial) matrix)
    | _, _ => .error .keyError

/-- sig_perm/scripts/01_cayley/__main__.py:67-107: the dict `mc_row_to_sc_matrix` -/
def rowToMatrix (n : Nat) : Except Err (Dict Nat (List (List Nat))) := do
  let cayley ← sigTable n
  let part ← newPart [] (.finite ((pairs (List.range n.factorial)).map fun ab => (pairCode n ab.1 ab.2 : Int)))
  let moved ← movedLoop n cayley (pairs (List.range n.factorial)) part
  rowLoop n moved moved.blocks []

end Verif.Cay
