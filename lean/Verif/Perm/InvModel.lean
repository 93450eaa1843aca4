import Verif.Perm.Model
import Mathlib.Data.Nat.Factorial.Basic

/-!
# Model of the inversion related vectors, ranks and parity of permutations

`p[k]` for a list of naturals is `p.getD k 0`; the loops only use places below `len(p)`.
-/

namespace Verif.P
open Verif.Py

/-- perm/a/inversion_related_vectors/__init__.py:1-10 -/
def leftInversionCount (p : List Nat) : List Nat :=
  (List.range p.length).map fun i =>
    (List.range i).countP fun k => p.getD k 0 > p.getD i 0

/-- perm/a/inversion_related_vectors/__init__.py:13-22 -/
def rightInversionCount (p : List Nat) : List Nat :=
  (List.range p.length).map fun i =>
    (List.range' i (p.length - i)).countP fun k => p.getD k 0 < p.getD i 0

/-- perm/a/inversion_related_vectors/__init__.py:28-33, the loop setting `v[p[i]] = count`. -/
def inversionVectorLoop (p : List Nat) : List Nat → List Nat → Except Err (List Nat)
  | [], v => .ok v
  | i :: is, v =>
    let count := (List.range i).countP fun k => p.getD k 0 > p.getD i 0
    if p.getD i 0 < v.length then inversionVectorLoop p is (v.set (p.getD i 0) count)
    else .error .indexError

/-- perm/a/inversion_related_vectors/__init__.py:25-34 -/
def inversionVector (p : List Nat) : Except Err (List Nat) :=
  inversionVectorLoop p (List.range p.length) (List.replicate p.length 0)

/-- perm/a/inversion_related_vectors/__init__.py:41-44: `c = stack.pop(b); perm.append(c)` -/
def rightLoop : List Nat → List Nat → List Nat → Except Err (List Nat)
  | [], _, perm => .ok perm
  | b :: bs, stack, perm =>
    match stack[b]? with
    | none => .error .indexError
    | some c => rightLoop bs (stack.eraseIdx b) (perm ++ [c])

/-- perm/a/inversion_related_vectors/__init__.py:37-45 -/
def rightInversionCountToPermutation (vector : List Nat) : Except Err (List Nat) :=
  rightLoop vector (List.range vector.length) []

/-- perm/a/inversion_related_vectors/__init__.py:53-56: `c = stack.pop(b); perm.appendleft(n-1-c)`;
the entries of the vector are passed in the order of the loop, i.e. from the last to the first. -/
def leftLoop (n : Nat) : List Nat → List Nat → List Nat → Except Err (List Nat)
  | [], _, perm => .ok perm
  | b :: bs, stack, perm =>
    match stack[b]? with
    | none => .error .indexError
    | some c => leftLoop n bs (stack.eraseIdx b) ((n - 1 - c) :: perm)

/-- perm/a/inversion_related_vectors/__init__.py:48-57 -/
def leftInversionCountToPermutation (vector : List Nat) : Except Err (List Nat) :=
  leftLoop vector.length vector.reverse (List.range vector.length) []

/-- perm/a/inversion_related_vectors/__init__.py:60-72; `pairs` is a python set. -/
def inversionSetToCount (pairs : List (Nat × Nat)) (variantLeft : Bool := true) : List Nat :=
  -- lines 63-68
  let length := pairs.foldl (fun l ab => max (max l (ab.1 + 1)) (ab.2 + 1)) 0
  let keyToCount : Dict Nat Nat := pairs.foldl (fun d ab =>
    let key := if variantLeft then ab.2 else ab.1
    d.set key ((d.get? key).getD 0 + 1)) []
  -- lines 69-71
  keyToCount.foldl (fun v kc => v.set kc.1 kc.2) (List.replicate length 0)

/-- perm/a/inversion_related_vectors/__init__.py:75-76 -/
def inversionSetToPermutation (pairs : List (Nat × Nat)) : Except Err (List Nat) :=
  leftInversionCountToPermutation (inversionSetToCount pairs)

/-- perm/metributes/inversion_set/__init__.py:4-15 (a set, in the order of `combinations`). -/
def Perm.inversionSet (p : Perm) : List (Nat × Nat) :=
  ((List.range p.length).flatMap fun a => (List.range' (a + 1) (p.length - (a + 1))).map fun b => (a, b)).filter
    fun ab => p.get ab.1 > p.get ab.2

/-- perm/metributes/parity/__init__.py:4-9 -/
def Perm.parity (p : Perm) : Nat := p.inversionSet.length % 2

/-- `factoradic.from_factoradic` (external library): the digit at place `i` has weight `i!`. -/
def fromFactoradic (digits : List Nat) : Nat :=
  (digits.zipIdx.map fun di => di.1 * Nat.factorial di.2).sum

/-- perm/metributes/ranks/left_rank.py:11-21 -/
def Perm.leftRank (p : Perm) : Except Err Nat :=
  match p.perilen with
  | some _ => .error .permNotFinite
  | none =>
    if p.neutral then .ok 0
    else
      match p.sequence with
      | .error e => .error e
      | .ok s => .ok (fromFactoradic (leftInversionCount s))

/-- perm/metributes/ranks/right_rank.py:11-22; the assignment in the neutral branch has no effect. -/
def Perm.rightRank (p : Perm) : Except Err Nat :=
  match p.perilen with
  | some _ => .error .permNotFinite
  | none =>
    match p.sequence with
    | .error e => .error e
    | .ok s => .ok (fromFactoradic (rightInversionCount s).reverse)

/-- a/int_to_factoradic/__init__.py:7-10, the loop (fuel bounded). -/
def factoradicLoop : Nat → Nat → Nat → List Nat → Except Err (List Nat)
  | fuel, value, divisor, result =>
    if value > 0 then
      match fuel with
      | 0 => .error .diverges
      | fuel + 1 => factoradicLoop fuel (value / divisor) (divisor + 1) (result ++ [value % divisor])
    else .ok result

/-- a/int_to_factoradic/__init__.py:1-12 -/
def intToFactoradic (n : Nat) : Except Err (List Nat) := factoradicLoop (n + 1) n 1 []

/-- a/int_to_perm/__init__.py:5-12 -/
def intToPerm (n : Nat) : Except Err Perm :=
  match intToFactoradic n with
  | .error e => .error e
  | .ok left =>
    match leftInversionCountToPermutation left with
    | .error e => .error e
    | .ok s => mkPerm (.seq s)

end Verif.P
