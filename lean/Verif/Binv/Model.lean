import Verif.Py.Basic
import Verif.Py.Bin
import Verif.Py.Str

/-!
# Model of `Binv` (binv/)

A `Binv` object is represented by its attribute `vector`; the cached properties are functions of it (no
modelled method changes `vector` after the construction).
-/

namespace Verif.BV
open Verif.Py

/-- A `Binv` object: its `vector`; binv/__init__.py:82. -/
structure Binv where
  vector : List Bool
deriving DecidableEq, Repr

/-- The argument `vector` of the constructor (binv/__init__.py:27-44): a list or tuple of integers (booleans count as 0 and 1),
a string, or another `Binv`.  Other types raise `VectorTypeError` (not modelled). -/
inductive VecArg
  | list (l : List Int)
  | str (s : List Char)
  | binv (b : Binv)

/-- The arguments of the constructor, binv/__init__.py:11.  `exposet` is a list of integers (a set
is any list of its elements). -/
structure Args where
  vector : Option VecArg := none
  intval : Option Int := none
  exposet : Option (List Int) := none
  length : Option Int := none
  minimalLength : Option Int := none

/-- binv/a/binary_length/__init__.py:6-13.  The exact number of binary digits; the code computes
`floor(log(n, 2)) + 1` in floating point, which is outside the model. -/
def binaryLength (n : Nat) : Nat := (binLoop n n).length

/-- binv/__init__.py:42-44 and 82 for one entry of a list -/
def entryBit (e : Int) : Except Err Bool :=
  if e = 0 then .ok false else if e = 1 then .ok true else .error .vectorEntry

/-- binv/__init__.py:42-44 and 82 for one character of a string; `int(e)` of a character that is not a
digit raises `ValueError`, other digits are not in `[0, 1]`.  (Digits of other scripts, which `int` accepts, are not modelled.) -/
def charBit (c : Char) : Except Err Bool :=
  if c = '0' then .ok false else if c = '1' then .ok true else .error .vectorEntry

/-- `s.zfill(length)[::-1]` for a reversed numeral. -/
def zfillLE (s : List Bool) (length : Int) : List Bool := s ++ List.replicate (length.toNat - s.length) false

/-- `max(l)` of a non-empty list; `ValueError` for an empty one. -/
def pyMax : List Int → Except Err Int
  | [] => .error .valueError
  | x :: xs => .ok (xs.foldl max x)

/-- `vector[i] = True`, with python's indices from the end. -/
def setTrue (v : List Bool) (i : Int) : Except Err (List Bool) :=
  if 0 ≤ i then (if i < v.length then .ok (v.set i.toNat true) else .error .indexError)
  else (if 0 ≤ i + v.length then .ok (v.set (i + v.length).toNat true) else .error .indexError)

/-- binv/__init__.py:79-80 -/
def setAll : List Int → List Bool → Except Err (List Bool)
  | [], v => .ok v
  | i :: is, v => match setTrue v i with
    | .error e => .error e
    | .ok v' => setAll is v'

/-- binv/__init__.py:78-82 -/
def fromExposet (exposet : List Int) (length : Int) : Except Err Binv :=
  match setAll exposet (List.replicate length.toNat false) with
  | .error e => .error e
  | .ok v => .ok ⟨v⟩

/-- binv/__init__.py:27-44 and 82 -/
def mkVector : VecArg → Except Err Binv
  | .list l => match l.mapM entryBit with
    | .error e => .error e
    | .ok v => .ok ⟨v⟩
  | .str s => match (s.filter (· ≠ ' ')).mapM charBit with
    | .error e => .error e
    | .ok v => .ok ⟨v⟩
  | .binv b => .ok b

/-- binv/__init__.py:46-59 and 82 -/
def mkIntval (intval : Int) (length minimalLength : Option Int) : Except Err Binv :=
  if intval ≥ 0 then
    match length, minimalLength with
    | none, none =>
      if intval = 0 then .ok ⟨[]⟩ else .ok ⟨binLE intval.toNat⟩
    | some L, _ =>
      if L ≥ binaryLength intval.toNat then .ok ⟨zfillLE (binLE intval.toNat) L⟩ else .error .lengthError
    | none, some m => .ok ⟨zfillLE (binLE intval.toNat) (max m (binaryLength intval.toNat))⟩
  else .error .intvalError

/-- binv/__init__.py:61-82 -/
def mkExposet (exposet : List Int) (length minimalLength : Option Int) : Except Err Binv :=
  match length, minimalLength with
  | none, none =>
    if exposet.length = 0 then .ok ⟨[]⟩
    else match pyMax exposet with
      | .error e => .error e
      | .ok m => fromExposet exposet (m + 1)
  | some L, _ =>
    if exposet.length > 0 then
      match pyMax exposet with
      | .error e => .error e
      | .ok m => if L > m then fromExposet exposet L else .error .lengthError
    else fromExposet exposet L
  | none, some ml =>
    match pyMax exposet with
    | .error e => .error e
    | .ok m => fromExposet exposet (max ml (m + 1))

/-- binv/__init__.py:11-84; `minimal_length` is ignored beside `vector`, `length` is not allowed there. -/
def mk (a : Args) : Except Err Binv :=
  match a.vector, a.intval, a.exposet with
  | some v, none, none => if a.length.isNone then mkVector v else .error .argumentError
  | none, some n, none => mkIntval n a.length a.minimalLength
  | none, none, some x => mkExposet x a.length a.minimalLength
  | _, _, _ => .error .argumentError

/-- `Binv(vector)` for a list of booleans. -/
def ofBools (v : List Bool) : Except Err Binv := mk { vector := some (.list (v.map fun b => (b.toNat : Int))) }

/-- binv/a/to_string/__init__.py:1-6 -/
def toStr (v : List Bool) : List Char := v.foldl (fun r e => r ++ [if e then '1' else '0']) []

/-- binv/metributes/string.py:7-11 -/
def Binv.string (b : Binv) : List Char := toStr b.vector

/-- binv/metributes/length.py:5-9 and binv/__init__.py:123-124 -/
def Binv.length (b : Binv) : Nat := b.vector.length

/-- binv/metributes/weight.py:5-9 -/
def Binv.weight (b : Binv) : Nat := (b.vector.map Bool.toNat).sum

/-- `int(s, 2)` of a numeral of zeros and ones, most significant digit first. -/
def intBase2 (s : List Char) : Nat := s.foldl (fun n c => 2 * n + (if c = '1' then 1 else 0)) 0

/-- binv/metributes/intval.py:5-12 -/
def Binv.intval (b : Binv) : Nat := if b.string = [] then 0 else intBase2 b.string.reverse

/-- binv/metributes/exposet.py:5-9, the set as ascending list -/
def Binv.exposet (b : Binv) : List Nat := (b.vector.zipIdx.filter Prod.fst).map Prod.snd

/-- binv/__init__.py:84 and 89 -/
def Binv.requiredLength (b : Binv) : Nat := if b.exposet = [] then 0 else b.exposet.foldl max 0 + 1

/-- binv/metributes/complement.py:5-11 and binv/methods/bitwise.py:41-42 -/
def Binv.complement (b : Binv) : Except Err Binv := ofBools (b.vector.map (!·))

/-- binv/metributes/reverse.py:5-9 -/
def Binv.rev (b : Binv) : Except Err Binv := ofBools b.vector.reverse

/-- binv/metributes/changes.py:5-17 -/
def Binv.changes (b : Binv) : Nat :=
  if b.length < 2 then 0
  else (List.range' 1 (b.length - 1)).foldl (fun r i => if b.vector[i - 1]? ≠ b.vector[i]? then r + 1 else r) 0

/-- binv/__init__.py:98-102; a negative position counts from the end. -/
def Binv.flipBit (b : Binv) (position : Int) : Except Err Binv :=
  if position < b.length then
    let p := if 0 ≤ position then position else position + b.length
    if 0 ≤ p then ofBools (b.vector.modify p.toNat (!·)) else .error .indexError
  else .error .assertion

/-- binv/__init__.py:106-107 -/
def Binv.hasIndex (b : Binv) (key : Nat) : Bool := b.exposet.contains key

/-- binv/__init__.py:112-114 -/
def Binv.add (b c : Binv) : Except Err Binv := ofBools (b.vector ++ c.vector)

/-- binv/__init__.py:116-118 -/
def Binv.eq (b c : Binv) : Bool := b.vector == c.vector

/-- binv/__init__.py:109-110 for a natural index -/
def Binv.getItem (b : Binv) (i : Nat) : Except Err Bool :=
  match b.vector[i]? with
  | some x => .ok x
  | none => .error .indexError

/-- binv/methods/bitwise.py:7-15 -/
def Binv.bitwise (op : Bool → Bool → Bool) (b c : Binv) : Except Err Binv :=
  match (List.range b.length).mapM (fun i => do return op (← b.getItem i) (← c.getItem i)) with
  | .error e => .error e
  | .ok v => ofBools v

/-- binv/methods/bitwise.py:25-26 -/
def Binv.and (b c : Binv) : Except Err Binv := b.bitwise (· && ·) c
/-- binv/methods/bitwise.py:29-30 -/
def Binv.or (b c : Binv) : Except Err Binv := b.bitwise (· || ·) c
/-- binv/methods/bitwise.py:33-34 -/
def Binv.xor (b c : Binv) : Except Err Binv := b.bitwise Bool.xor c

/-- binv/methods/bitwise.py:19-22, for the remaining indices -/
def smallerLoop (b c : Binv) : List Nat → Except Err Bool
  | [] => .ok true
  | i :: is => match b.getItem i, c.getItem i with
    | .ok x, .ok y => if x && !y then .ok false else smallerLoop b c is
    | .error e, _ => .error e
    | _, .error e => .error e

/-- binv/methods/bitwise.py:16-22 and 37-38 -/
def Binv.bitwiseSmaller (b c : Binv) : Except Err Bool :=
  if b.eq c then .ok false else smallerLoop b c (List.range b.length)

/-- python `<` of lists of booleans -/
def listLt : List Bool → List Bool → Bool
  | _, [] => false
  | [], _ :: _ => true
  | x :: xs, y :: ys => if x = y then listLt xs ys else (!x && y)

/-- binv/methods/comparisons.py:1-2 -/
def Binv.lt (b c : Binv) : Bool := listLt b.vector c.vector
/-- binv/methods/comparisons.py:5-6 -/
def Binv.gt (b c : Binv) : Bool := c.lt b
/-- binv/methods/comparisons.py:9-10 -/
def Binv.le (b c : Binv) : Bool := b.eq c || b.lt c
/-- binv/methods/comparisons.py:13-14 -/
def Binv.ge (b c : Binv) : Bool := c.le b

/-- binv/methods/str.py:9-13, with the given exposet and tilde -/
def longStr (tilde : Bool) (exposet : List Nat) (length : Nat) : List Char :=
  (if tilde then ['~'] else []) ++ "Binv(exposet=".toList ++ listStr natStr (sorted exposet) ++
    ", length=".toList ++ natStr length ++ [')']

/-- binv/methods/str.py:1-13; `__hash__` (16-17) is a function of it. -/
def Binv.str (b : Binv) : Except Err (List Char) :=
  if b.length ≤ 16 then .ok ("Binv('".toList ++ b.string ++ "')".toList)
  else if 2 * b.weight > b.length then
    match b.complement with
    | .error e => .error e
    | .ok c => .ok (longStr true c.exposet b.length)
  else .ok (longStr false b.exposet b.length)

/-- binv/a/to_pretty_string/__init__.py:14-22: the digit and the spaces after it, for the remaining digits -/
def prettyLoop (length : Nat) : Nat → List Bool → List Char
  | _, [] => []
  | i, d :: ds =>
    (if d then '1' else '0') ::
      ((if i + 1 ≠ length then
          (if (i + 1) % 4 = 0 then (if (i + 1) % 16 = 0 then [' ', ' '] else [' ']) else [])
        else []) ++ prettyLoop length (i + 1) ds)

/-- binv/a/to_pretty_string/__init__.py:6-23 for a vector, and binv/metributes/pretty.py:7-11 -/
def Binv.pretty (b : Binv) : Except Err (List Char) :=
  if b.length ∈ (List.range 7).map (2 ^ ·) then .ok (prettyLoop b.length 0 b.vector) else .error .prettyLength

end Verif.BV
