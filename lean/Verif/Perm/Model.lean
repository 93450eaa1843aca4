import Verif.Py.Basic
import Verif.Py.Str

/-!
# Model of `discretehelpers/perm/__init__.py` and its helpers

Simplifications, valid for the whole file:
* all numbers are naturals (the python code also lets negative dict keys and values through);
* `ArgTypeError`, `CyclesError`, `PeriodLengthNotNaturalError`, `OtherNotPermError` concern wrongly typed
  arguments and cannot be expressed, because the arguments are typed here;
* `moved` is the key set of `mapping` (lines 54, 62) and is not stored twice;
* `np.lcm` is the exact least common multiple (no 64 bit overflow).
-/

namespace Verif.P
open Verif.Py

/-- perm/__init__.py:60-74, the attributes set by the constructor. -/
structure Perm where
  neutral : Bool
  mapping : Dict Nat Nat
  perilen : Option Nat
  length : Nat
deriving DecidableEq, Repr

/-- The key set of the mapping; perm/__init__.py:54,62. -/
def Perm.moved (p : Perm) : List Nat := p.mapping.keys

/-- perm/__init__.py:69-74 `set_neutral` -/
def neutralPerm : Perm := ⟨true, [], none, 0⟩

/-- The three formats of the first argument; perm/__init__.py:11-18.  `None` is `noArg`. -/
inductive Arg
  | noArg
  | seq (l : List Nat)
  | cycles (cs : List (List Nat))
  | dict (d : Dict Nat Nat)

/-- `sympy.primefactors(n)`: the distinct prime divisors in ascending order (external library). -/
def primefactors (n : Nat) : List Nat :=
  (List.range (n + 1)).filter fun p =>
    2 ≤ p && n % p == 0 && (List.range p).all fun d => d < 2 || p % d != 0

/-- A python `for x in l: if not f(x): return False` loop whose body may raise. -/
def allE {α : Type} (f : α → Except Err Bool) : List α → Except Err Bool
  | [] => .ok true
  | x :: xs =>
    match f x with
    | .error e => .error e
    | .ok false => .ok false
    | .ok true => allE f xs

/-- perm/a/reduce_period/__init__.py:36: is the pattern of moved elements repeated at this place? -/
def movedCheck (moved : List Nat) (movblocklen blocklen key i : Nat) : Except Err Bool :=
  match moved[i * movblocklen + key]?, moved[key]? with
  | some a, some b => .ok (a == i * blocklen + b)
  | _, _ => .error .indexError

/-- perm/a/reduce_period/__init__.py:42-43: is the mapping repeated at this place? -/
def mappingCheck (mapping : Dict Nat Nat) (blocklen key i : Nat) : Except Err Bool :=
  let length := i * blocklen
  match mapping.get? (length + key), mapping.get? key with
  | some a, some b => .ok (a == length + b)
  | _, _ => .error .keyError

/-- perm/a/reduce_period/__init__.py:22-46 `block_repeats` (with `testing=False`). -/
def blockRepeats (mapping : Dict Nat Nat) (perilen prime : Nat) : Except Err Bool :=
  let blocklen := perilen / prime
  let moved := sorted mapping.keys
  let movlen := moved.length
  if movlen % prime ≠ 0 then .ok false
  else
    let movblocklen := movlen / prime
    -- lines 34-37
    match allE (fun key => allE (fun i => movedCheck moved movblocklen blocklen key i)
            (List.range' 1 (prime - 1))) (List.range movblocklen) with
    | .error e => .error e
    | .ok false => .ok false
    | .ok true =>
      -- lines 40-44
      allE (fun key => allE (fun i => mappingCheck mapping blocklen key i)
        (List.range' 1 (prime - 1))) (mapping.keys.filter (· < blocklen))

/-- perm/a/reduce_period/__init__.py:9-12, the first prime for which the block repeats. -/
def findPrime (mapping : Dict Nat Nat) (perilen : Nat) : List Nat → Except Err (Option Nat)
  | [] => .ok none
  | prime :: ps =>
    match blockRepeats mapping perilen prime with
    | .error e => .error e
    | .ok true => .ok (some prime)
    | .ok false => findPrime mapping perilen ps

/-- perm/a/reduce_period/__init__.py:4-19 `reduce_period`; the recursion is bounded by fuel. -/
def reduceAux : Nat → Dict Nat Nat → Nat → Except Err (Dict Nat Nat × Nat)
  | 0, _, _ => .error .diverges
  | fuel + 1, mapping, perilen =>
    match findPrime mapping perilen (primefactors perilen) with
    | .error e => .error e
    | .ok none => .ok (mapping, perilen)
    | .ok (some prime) =>
      let perilen' := perilen / prime
      reduceAux fuel (mapping.filter (fun kv => kv.1 < perilen')) perilen'

/-- `reduce_period` with enough fuel (each call at least halves the period length). -/
def reducePeriod (mapping : Dict Nat Nat) (perilen : Nat) : Except Err (Dict Nat Nat × Nat) :=
  reduceAux (perilen + 1) mapping perilen

/-- `max(s)` of a non-empty collection of naturals. -/
def maxNat (l : List Nat) : Nat := l.foldl max 0

/-- perm/__init__.py:26-47: the mapping of non-fixed points. -/
def argMapping : Arg → Except Err (Dict Nat Nat)
  | .noArg => .ok []
  | .seq l =>                                                        -- lines 29-33
    if sorted l = List.range l.length then
      .ok (Dict.ofPairs ((l.zipIdx.map (fun p => (p.2, p.1))).filter (fun kv => kv.1 ≠ kv.2)))
    else .error .sequenceError
  | .cycles cs =>                                                    -- lines 34-42
    .ok (Dict.ofPairs ((cs.flatMap (fun cycle =>
      cycle.zipIdx.map (fun p => (p.1, (cycle[(p.2 + 1) % cycle.length]?).getD p.1)))).filter
        (fun kv => kv.1 ≠ kv.2)))
  | .dict d =>                                                       -- lines 43-47
    if sorted d.keys = sorted d.values then .ok (Dict.ofPairs (d.filter (fun kv => kv.1 ≠ kv.2)))
    else .error .dictError

/-- perm/__init__.py:49-67 -/
def finish (mapping : Dict Nat Nat) (perilen : Option Nat) : Except Err Perm :=
  if mapping = [] then .ok neutralPerm
  else
    match perilen with
    | none => .ok ⟨false, mapping, none, maxNat mapping.keys + 1⟩
    | some l =>
      if ¬ 2 ≤ l then .error .perilenTooSmall
      else if ¬ maxNat mapping.keys < l then .error .perilenTooSmall
      else
        match reducePeriod mapping l with
        | .error e => .error e
        | .ok (m, l') => .ok ⟨false, m, some l', l'⟩

/-- perm/__init__.py:11-67, the constructor `Perm(arg, perilen)`. -/
def mkPerm (arg : Arg) (perilen : Option Nat := none) : Except Err Perm :=
  match argMapping arg with
  | .error e => .error e
  | .ok m => finish m perilen

/-- perm/__init__.py:79-93 `__getitem__` for a natural argument. -/
def Perm.get (p : Perm) (i : Nat) : Nat :=
  if p.neutral then i
  else
    match p.perilen with
    | none => (p.mapping.get? i).getD i
    | some l =>
      match p.mapping.get? (i % l) with
      | some v => v + i - i % l
      | none => i

/-- perm/__init__.py:97-102 `__eq__` -/
def Perm.eq (p q : Perm) : Bool :=
  if p.neutral && q.neutral then true
  else Dict.eq p.mapping q.mapping && p.perilen == q.perilen

/-- perm/a/broaden_moved/__init__.py:19-26 `sub` (a set, in some iteration order). -/
def broadenSub (small : List Nat) (perilen repetitions : Nat) : List Nat :=
  ((List.range repetitions).flatMap (fun i => small.map (fun x => i * perilen + x))).dedup

/-- perm/a/broaden_moved/__init__.py:4-16 -/
def broadenMoved (aLen bLen : Nat) (aMoved bMoved : List Nat) : Nat × List Nat :=
  let big := Nat.lcm aLen bLen
  (big, (broadenSub aMoved aLen (big / aLen) ++ broadenSub bMoved bLen (big / bLen)).dedup)

/-- perm/__init__.py:119-141 `__mul__`: `a * b` means `a` after `b`. -/
def Perm.mul (a b : Perm) : Except Err Perm :=
  if a.neutral then .ok b
  else if b.neutral then .ok a
  else
    match a.perilen, b.perilen with
    | none, none =>
      let moved := (a.moved ++ b.moved).dedup
      mkPerm (.dict (Dict.ofPairs (moved.map (fun i => (i, a.get (b.get i)))))) none
    | some la, some lb =>
      let r := broadenMoved la lb a.moved b.moved
      mkPerm (.dict (Dict.ofPairs (r.2.map (fun i => (i, a.get (b.get i)))))) (some r.1)
    | _, _ => .error .otherPerilenMismatch

/-- perm/metributes/inverse.py:4-12 -/
def Perm.inverse (p : Perm) : Except Err Perm :=
  mkPerm (.dict (Dict.ofPairs (p.mapping.map (fun kv => (kv.2, kv.1))))) p.perilen

/-- perm/__init__.py:154-155: `result *= factor`, `n` times. -/
def mulLoop (factor : Perm) : Nat → Perm → Except Err Perm
  | 0, r => .ok r
  | n + 1, r =>
    match r.mul factor with
    | .error e => .error e
    | .ok r' => mulLoop factor n r'

/-- perm/__init__.py:143-162 `__pow__` -/
def Perm.pow (p : Perm) (exponent : Int) : Except Err Perm :=
  if exponent = 0 then .ok neutralPerm
  else if exponent = 1 then .ok p
  else if exponent = -1 then p.inverse
  else if exponent > 1 then mulLoop p (exponent - 1).toNat p
  else
    match p.inverse with
    | .error e => .error e
    | .ok inv => mulLoop inv (-exponent - 1).toNat inv

/-- perm/__init__.py:164-172 `sequence` -/
def Perm.sequence (p : Perm) (length : Option Nat := none) : Except Err (List Nat) :=
  match length with
  | some n =>
    match p.perilen with
    | some l => if n % l = 0 then .ok ((List.range n).map p.get) else .error .lengthMismatchPerilen
    | none => if n ≥ p.length then .ok ((List.range n).map p.get) else .error .lengthTooSmall
  | none =>
    match p.perilen with
    | some l => .ok ((List.range l).map p.get)
    | none => .ok ((List.range p.length).map p.get)

/-- perm/__init__.py:174-177 `apply_on_vector`; the container type is always a list. -/
def Perm.applyOnVector {α : Type} (p : Perm) (vector : List α) : Except Err (List α) :=
  match p.inverse with
  | .error e => .error e
  | .ok inv =>
    (List.range vector.length).mapM fun i =>
      match vector[inv.get i]? with
      | some x => .ok x
      | none => .error .indexError

/-- perm/metributes/cycles.py:17-25, the inner loop following one cycle. -/
def cycleLoop : Nat → Dict Nat Nat → List Nat → Nat → Except Err (Dict Nat Nat × List Nat)
  | 0, _, _, _ => .error .diverges
  | fuel + 1, mapping, cycle, oldKey =>
    match mapping.get? oldKey with
    | none => .error .keyError
    | some key =>
      let mapping := mapping.erase oldKey
      if key ∉ cycle then cycleLoop fuel mapping (cycle ++ [key]) key
      else .ok (mapping, cycle)

/-- perm/metributes/cycles.py:13-27, the outer loop. -/
def cyclesLoop : Nat → Dict Nat Nat → List (List Nat) → Except Err (List (List Nat))
  | fuel, mapping, result =>
    match sorted mapping.keys with
    | [] => .ok result
    | key :: _ =>
      match fuel with
      | 0 => .error .diverges
      | fuel + 1 =>
        match cycleLoop (mapping.length + 1) mapping [key] key with
        | .error e => .error e
        | .ok (mapping', cycle) => cyclesLoop fuel mapping' (result ++ [cycle])

/-- perm/metributes/cycles.py:4-27 -/
def Perm.cycles (p : Perm) : Except Err (List (List Nat)) :=
  if p.neutral then .ok [] else cyclesLoop p.mapping.length p.mapping []

/-- perm/metributes/order.py:6-17; `np.lcm.reduce` as a fold. -/
def Perm.order (p : Perm) : Except Err Nat :=
  if p.neutral then .ok 1
  else
    match p.cycles with
    | .error e => .error e
    | .ok cs => .ok ((cs.map List.length).foldl Nat.lcm 1)

/-- perm/__init__.py:179-191 `cycles_dynamic` -/
def Perm.cyclesDynamic (p : Perm) (length : Option Nat := none) : Except Err (List (List Nat)) :=
  match p.perilen with
  | none => .error .notPeriodic
  | some l =>
    let go (n : Nat) : Except Err (List (List Nat)) :=
      match p.cycles with
      | .error e => .error e
      | .ok cs => .ok ((List.range (n / l)).flatMap (fun i => cs.map (fun c => c.map (· + i * l))))
    match length with
    | some n => if n % l = 0 then go n else .error .lengthMismatchPerilen
    | none => go l

/-- perm/__init__.py:104-111 `__str__`, as a list of characters.  `__hash__` (lines 116-117) is a
function of this. -/
def Perm.str (p : Perm) : Except Err (List Char) :=
  if p.neutral then .ok "Perm()".toList
  else
    match p.cycles with
    | .error e => .error e
    | .ok cs =>
      let cycles := listStr (listStr natStr) cs
      match p.perilen with
      | some l => .ok ("Perm(".toList ++ (cycles ++ (", perilen=".toList ++ (natStr l ++ ")".toList))))
      | none => .ok ("Perm(".toList ++ (cycles ++ ")".toList))

end Verif.P
