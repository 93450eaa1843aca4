import Verif.Boolf.Model
import Verif.SigPerm.Props2

/-!
# Model of `Boolf` (boolf/), part 2: twins, Walsh spectra, the whole constructor, substitution of atoms

Generators are modelled by the lists of their entries; an exception raised while a generator runs is the result of the whole.
-/

namespace Verif.BF
open Verif.Py Verif.BV Verif.P Verif.W
open Verif.A hiding Mat

/-! ## Simple generators -/

/-- The keys of `operator_to_details`; boolf/a/simple_gens/__init__.py:21-59. -/
inductive Op
  | AND | XAND | OR | XOR | EQ | SAND | GAND | ESAND | OSAND
deriving DecidableEq

/-- boolf/a/simple_gens/__init__.py:4-5 -/
def opAnd (bt : List Bool) : Bool := !bt.contains false
/-- boolf/a/simple_gens/__init__.py:8-9 -/
def opOr (bt : List Bool) : Bool := bt.contains true
/-- python `sum(bt)` of Booleans -/
def bsum (bt : List Bool) : Nat := (bt.map Bool.toNat).sum
/-- boolf/a/simple_gens/__init__.py:12-13; `len(av) - 1` is a python integer -/
def opSand (bt : List Bool) (n : Nat) : Bool := decide ((bsum bt : Int) = (n : Int) - 1)
/-- boolf/a/simple_gens/__init__.py:16-17 -/
def opGand (bt : List Bool) (n : Nat) : Bool := opAnd bt || opSand bt n

/-- boolf/a/simple_gens/__init__.py:21-59, the entries 'default' -/
def Op.default : Op → Bool
  | .AND | .XAND | .GAND | .ESAND => true
  | .OR | .XOR | .EQ | .SAND | .OSAND => false

/-- boolf/a/simple_gens/__init__.py:21-59, the entries 'criterion'; `n` is `len(av)`. -/
def Op.criterion (op : Op) (bt : List Bool) (n : Nat) : Bool :=
  match op with
  | .AND => opAnd bt
  | .XAND => decide (bsum bt % 2 = n % 2)
  | .OR => opOr bt
  | .XOR => decide (bsum bt % 2 ≠ 0)
  | .EQ => !opOr bt || opAnd bt
  | .SAND => opSand bt n
  | .GAND => opGand bt n
  | .ESAND => if n % 2 ≠ 0 then opSand bt n else opGand bt n
  | .OSAND => if n % 2 ≠ 0 then opGand bt n else opSand bt n

/-- python `zip(*ls)` -/
def zipStar {α : Type} : List (List α) → List (List α)
  | [] => []
  | [l] => l.map ([·])
  | l :: ls => List.zipWith List.cons l (zipStar ls)

/-- boolf/a/simple_gens/__init__.py:62-73 -/
def rawGen (atomvals : List Int) (arity : Nat) (op : Op) : Except Err (List Bool) := do
  let first := if atomvals = [] then (List.range (1 <<< arity)).map fun _ => op.default else []
  let atomGens ← atomvals.mapM (atompatternGen · arity)
  return first ++ (zipStar atomGens).map fun bt => op.criterion bt atomvals.length

/-! ## Twins -/

/-- boolf/a/twin_misc/__init__.py:14-25 for a Binv or a list of Booleans -/
def rawTTGen (tt : List Bool) (op : Op) (arity : Nat) : Except Err (List Bool) :=
  if tt.length = 1 <<< arity then
    if bsum tt ≠ 0 then do
      let conjus ← (tt.zipIdx.filter Prod.fst).mapM fun kv => rawGen ((intToExposet kv.2).map Int.ofNat) arity op
      return (zipStar conjus).map fun bt => decide (bsum bt % 2 ≠ 0)
    else .ok (tt.map fun _ => false)
  else .error .assertion

/-- boolf/a/twin_misc/__init__.py:28-33 -/
def rawExposetGen (exposet : List Nat) (op : Op) (arity : Nat) : Except Err (List Nat) := do
  let conjus ← exposet.mapM fun greenPlace => rawGen ((intToExposet greenPlace).map Int.ofNat) arity op
  return ((zipStar conjus).zipIdx.filter fun bt => bsum bt.1 % 2 ≠ 0).map Prod.snd

/-- boolf/a/twin_misc/__init__.py:38-39 -/
def vectorToTwin (tt : List Bool) (arity : Nat) : Except Err (List Bool) := rawTTGen tt .AND arity

/-- boolf/a/twin_misc/__init__.py:42-43 -/
def exposetToTwin (exposet : List Nat) (arity : Nat) : Except Err (List Nat) := rawExposetGen exposet .AND arity

/-- boolf/a/twin_misc/__init__.py:46-49; `int_to_exposet` of a negative number is empty. -/
def twinInt (i : Int) (arity : Nat) : Except Err Nat := do
  return exposetToInt (← exposetToTwin (intToExposet i.toNat) arity)

/-- a/_log/log_floor/__init__.py:6-10 -/
def logFloor (x : Int) : Except Err Nat := if x - 1 ≥ 0 then .ok (Nat.log2 x.toNat) else .error .argValue

/-- boolf/a/intval_to_arity/__init__.py:6-13 -/
def intvalToArity (x : Int) : Except Err Nat :=
  if x ≥ 0 then
    if x = 0 ∨ x = 1 then .ok 0
    else do return (← logFloor (← logFloor x)) + 1
  else .error .argValue

/-- boolf/metributes/zhe/__init__.py:8-13 -/
def Boolf.zhe (f : Boolf) : Except Err Nat := do
  return vectorToInt (← vectorToTwin (← f.tt).vector f.adicity)

/-- boolf/methods/twin/__init__.py:5-18 -/
noncomputable def Boolf.twin (f : Boolf) (arity : Option Int := none) : Except Err Boolf :=
  match arity with
  | none => do newTT (.list ((← vectorToTwin (← f.tt (.arity f.adicity)).vector f.adicity).map fun b => (b.toNat : Int)))
  | some n =>
    if n ≥ f.adicity then do
      newTT (.list ((← vectorToTwin (← f.tt (.arity n)).vector n.toNat).map fun b => (b.toNat : Int)))
    else .error .assertion

/-! ## Walsh spectra -/

/-- One stage of sympy's `_walsh_hadamard_transform`, for `h = 2 ** (s + 1)`; the positions `i + j` and `i + j + hf` are those without and with bit `s`.
(The library is not part of the repository.) -/
def fwhtStage (a : List Int) (s : Nat) : List Int :=
  (List.range a.length).map fun i =>
    if i.testBit s then a.getD (i - 2 ^ s) 0 - a.getD i 0 else a.getD i 0 + a.getD (i + 2 ^ s) 0

/-- sympy's `_walsh_hadamard_transform` without the division: shorter lists are returned, other lengths filled up with zeros to a power of two. -/
def fwht (a : List Int) : List Int :=
  if a.length < 2 then a
  else
    let e := if isPowerOfTwo a.length then Nat.log2 a.length else Nat.log2 a.length + 1
    (List.range e).foldl fwhtStage (a ++ List.replicate (2 ^ e - a.length) 0)

/-- boolf/methods/walsh_spectrum/__init__.py:5-8 -/
def Boolf.walshSpectrum (f : Boolf) (arg : TTArg := .noArg) : Except Err (List Int) := do
  return fwht ((← f.tt arg).vector.map fun b => (b.toNat : Int))

/-- boolf/subinit_methods/ws/__init__.py:11-20: the inverse transform divides by the length; the entries must be 0 or 1. -/
noncomputable def newWalsh (ws : List Int) (skip : Bool) : Except Err Boolf :=
  let a := fwht ws
  let n : Int := if ws.length < 2 then 1 else a.length
  if a.all fun x => x = 0 ∨ x = n then newTT (.list (a.map fun x => if x = n then 1 else 0)) none none skip
  else .error .argValue

/-! ## The constructor -/

/-- An entry of a list like `multi_and`, boolf/subinit_methods/multi/__init__.py:46-47; others raise `ArgTypeError`. -/
inductive Entry
  | int (n : Int)
  | boolf (f : Boolf)

/-- The arguments of the constructor; boolf/__init__.py:10-16. -/
structure Args where
  tt : Option TT := none
  av : Option (List Int) := none
  atom : Option Int := none
  arity : Option Int := none
  fs : Option (List Int) := none
  muA : Option (List Entry) := none
  muO : Option (List Entry) := none
  muXo : Option (List Entry) := none
  muXa : Option (List Entry) := none
  zhe : Option Int := none
  ws : Option (List Int) := none
  skip : Bool := false

/-- boolf/subinit_methods/multi/__init__.py:48 -/
def Entry.toBoolf : Entry → Boolf
  | .int n => setUnary n
  | .boolf f => f

/-- boolf/subinit_methods/multi/__init__.py:46-49 with the starting value of lines 22-25 and `extend_fun` -/
noncomputable def multiLoop (extend : Boolf → Boolf → Except Err Boolf) (start : Boolf) (l : List Entry) : Except Err Boolf :=
  l.foldlM (fun boolf entry => extend boolf entry.toBoolf) start

/-- boolf/subinit_methods/multi/__init__.py:34-35 -/
noncomputable def Boolf.xand (a b : Boolf) : Except Err Boolf := do a.xor (← b.complement)

/-- boolf/subinit_methods/multi/__init__.py:13-53 -/
noncomputable def newMulti (muA muO muXo muXa : Option (List Entry)) : Except Err Boolf :=
  match muA, muO, muXo, muXa with
  | some l, none, none, none => do multiLoop Boolf.and (← newTT (.str ['1'])) l
  | none, some l, none, none => do multiLoop Boolf.or (← newTT (.str ['0'])) l
  | none, none, some l, none => do multiLoop Boolf.xor (← newTT (.str ['0'])) l
  | none, none, none, some l => do multiLoop Boolf.xand (← newTT (.str ['1'])) l
  | _, _, _, _ => .error .argCombo

/-- boolf/subinit_methods/zhe/__init__.py:9-23 -/
noncomputable def newZhe (zhe : Int) : Except Err Boolf := do
  let arity ← intvalToArity zhe
  newTT (.int (← twinInt zhe arity)) none (some (arity : Int))

/-- boolf/__init__.py:10-44 with a/subinit_bouncer/__init__.py:4-31.  When no initialization fits, the `while` loop does not end. -/
noncomputable def new (a : Args) : Except Err Boolf :=
  let noMulti := a.muA.isNone && a.muO.isNone && a.muXo.isNone && a.muXa.isNone
  match a.tt, a.atom, a.fs, a.zhe, a.ws with
  | none, some atom, none, none, none =>
    if a.av.isNone && a.arity.isNone && noMulti then .ok (setUnary atom) else .error .diverges
  | some tt, none, none, none, none => if noMulti then newTT tt a.av a.arity a.skip else .error .diverges
  | none, none, some fs, none, none => if noMulti then newFullspots fs a.av a.arity a.skip else .error .diverges
  | none, none, none, some zhe, none => if a.av.isNone && a.arity.isNone && noMulti then newZhe zhe else .error .diverges
  | none, none, none, none, some ws => if a.av.isNone && a.arity.isNone && noMulti then newWalsh ws a.skip else .error .diverges
  | none, none, none, none, none =>
    if a.av.isNone && a.arity.isNone then newMulti a.muA a.muO a.muXo a.muXa else .error .diverges
  | _, _, _, _, _ => .error .diverges

/-! ## Values and substitutions -/

/-- boolf/methods/vals_apply/val.py:8-20 for integers (a Boolean is an integer) -/
def Boolf.val (f : Boolf) (args : List Int) : Except Err Bool :=
  if args.length = f.valency then
    match args with
    | [] => .error .indexError
    | _ =>
      if args.all fun x => x = 0 ∨ x = 1 then do f.root.getItem (← BV.mk { vector := some (.list args) }).intval
      else .error .unexpectedArgument
  else .error .sarityMismatch

/-- boolf/methods/vals_apply/val.py:8-14 and 22-27 for Binvs -/
def Boolf.valBinvs (f : Boolf) (args : List Binv) : Except Err Binv :=
  if args.length = f.valency then
    match args with
    | [] => .error .indexError
    | first :: _ => do
      ofBools (← (List.range first.length).mapM fun i : Nat => do
        let argsI ← args.mapM (·.getItem i)
        f.val (argsI.map fun b => (b.toNat : Int)))
  else .error .sarityMismatch

/-- boolf/methods/vals_apply/vals.py:7-22 -/
def Boolf.vals (f : Boolf) (perm : List Int) : Except Err Binv :=
  if perm.length = f.valency then
    if (logicAbsVector perm).insertionSort (· ≤ ·) = (List.range f.valency).map Int.ofNat then do
      f.valBinvs (← makeAtompatternsList perm)
    else .error .unexpectedArgument
  else .error .sarityMismatch

/-- boolf/methods/vals_apply/apply.py:7-24 -/
noncomputable def Boolf.apply (f : Boolf) (perm : List Int) : Except Err Boolf :=
  if perm.length = f.valency then do
    let atomvalPerm := logicAbsVector perm
    let negators := perm.map fun z => decide (z < 0)
    let ordered := atomvalPerm.insertionSort (· ≤ ·)
    let atomkeyPerm := atomvalPerm.map ordered.idxOf
    let signed := List.zipWith (fun k neg => logicNegate (Int.ofNat k) neg) atomkeyPerm negators
    newTT (.binv (← f.vals signed)) (some ordered)
  else .error .sarityMismatch

/-- The argument of `apply_sigperm`, boolf/methods/vals_apply/apply_sigperm.py:10-15; others raise `ValueError`. -/
inductive SigArg
  | sigperm (s : SG.SigPerm)
  | perm (p : Perm)
  | list (l : List Int)

/-- `sequence[a]` for a natural index -/
def entryAt (sequence : List Int) (a : Nat) : Except Err Int :=
  match sequence[a]? with
  | some x => .ok x
  | none => .error .indexError

/-- boolf/methods/vals_apply/apply_sigperm.py:5-23 -/
noncomputable def Boolf.applySigperm (f : Boolf) (arg : SigArg) : Except Err Boolf :=
  if f.isConstant then .ok f
  else do
    let (len, seq) ← match arg with
      | .sigperm s => .ok (s.length, fun n => s.sequence (some n))
      | .perm p => .ok (p.length, fun n => (p.sequence (some n)).map (·.map Int.ofNat))
      | .list l => do
        let s ← SG.new { sequence := some l }
        .ok (s.length, fun n => s.sequence (some n))
    let sequence ← seq (max f.adicity len)
    let shortened ← f.atomvals.mapM (entryAt sequence)
    f.apply shortened

end Verif.BF
