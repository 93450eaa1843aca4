import Verif.Boolf.Model2

/-!
# Model of `Boolf` (boolf/), part 3: nobles, patrons, foibles, leaders, consuls, prefects

Numbers that stand for truth tables and arities are natural.
-/

namespace Verif.BF
open Verif.Py Verif.BV Verif.P Verif.W
open Verif.A hiding Mat

/-! ## Nobles -/

/-- boolf/a/praetor_int/__init__.py:8-25 -/
def praetorInt (intval arity : Nat) : Except Err Nat :=
  if arity > 0 then
    let length := 1 <<< arity
    let tooBig := 1 <<< length
    if intval < tooBig then do
      let halfLength := length / 2
      let tt ← BV.mk { intval := some (intval : Int), length := some (length : Int) }
      let left := (← ofBools (tt.vector.take halfLength)).intval
      let right := (← ofBools ((tt.vector.take length).drop halfLength)).intval
      return left ^^^ right
    else .error .argTooBig
  else .error .argTooSmall

/-- boolf/a/_noble/__init__.py:5-19 -/
def indexToNoble (i arity : Nat) : Except Err Nat :=
  if arity = 0 then (if i = 0 then .ok 0 else .error .argTooBig)
  else
    let junarity := arity - 1
    let rowLength := 1 <<< (1 <<< junarity)
    if i < rowLength then do
      let iTwin ← twinInt i junarity
      return (iTwin ^^^ i) + rowLength * i
    else .error .argTooBig

/-- boolf/methods/is_noble/__init__.py:4-9 -/
noncomputable def Boolf.isNoble (f : Boolf) (arity : Option Int := none) : Except Err Bool := do
  let arity := arity.getD f.adicity
  return f.eq (← f.twin (some arity))

/-- boolf/a/_noble/__init__.py:31-34 -/
noncomputable def nobleCheck (noble arity : Nat) (trust : Bool) : Except Err Unit :=
  if trust then .ok ()
  else do
    let boolf ← newTT (.int noble) none (some (arity : Int))
    if (← boolf.isNoble (some (arity : Int))) then .ok () else .error .argValue

/-- boolf/a/_noble/__init__.py:22-40 -/
noncomputable def nobleToIndex (noble arity : Nat) (trust : Bool := false) : Except Err Nat :=
  if arity = 0 then (if noble = 0 then .ok 0 else .error .argTooBig)
  else
    let maxNoble := (1 <<< (1 <<< arity)) - 2
    if noble ≤ maxNoble then do
      nobleCheck noble arity trust
      let praetor ← praetorInt noble arity
      twinInt praetor (arity - 1)
    else .error .argTooBig

/-- boolf/a/_noble/__init__.py:45-56 -/
noncomputable def nobleToQuadrant (noble arity : Nat) : Except Err Nat :=
  if arity = 0 then (if noble = 0 then .ok 0 else .error .argTooBig)
  else do
    let nobleIndex ← nobleToIndex noble arity
    (← newTT (.int nobleIndex) none (some ((arity - 1 : Nat) : Int))).quadrant

/-- boolf/a/_noble/__init__.py:59-81; the quadrant is always below 4 -/
noncomputable def nobleToRoyalAndQuadrant (noble arity : Nat) : Except Err (Nat × Nat) :=
  if arity = 0 then (if noble = 0 then .ok (0, 0) else .error .argTooBig)
  else do
    let quadrant ← nobleToQuadrant noble arity
    let p := 1 <<< ((1 <<< arity) - 1)
    let q := (1 <<< (1 <<< arity)) - 2
    return (if quadrant = 0 then noble else if quadrant = 1 then noble ^^^ p ^^^ q else if quadrant = 2 then noble ^^^ p else noble ^^^ q, quadrant)

/-- boolf/a/_noble/__init__.py:84-85 -/
noncomputable def nobleToRoyal (noble arity : Nat) : Except Err Nat := do return (← nobleToRoyalAndQuadrant noble arity).1

/-! ## Foibles -/

/-- boolf/metributes/_foibles/__init__.py:5-6 -/
def Boolf.isOdd (f : Boolf) : Except Err Bool := f.root.getItem 0

/-- boolf/metributes/_foibles/__init__.py:10-11; `root[-1]` -/
def Boolf.isOdious (f : Boolf) : Except Err Bool :=
  match f.root.vector.getLast? with
  | some x => .ok x
  | none => .error .indexError

/-- boolf/metributes/_foibles/__init__.py:15-16 -/
def Boolf.isUgly (f : Boolf) : Except Err Bool := do return (← f.isOdd) ^^ (← f.isOdious)

/-- boolf/metributes/_foibles/__init__.py:20-21 -/
def Boolf.isMale (f : Boolf) : Bool := decide (f.root.weight % 2 ≠ 0)

/-- boolf/methods/_foibles/__init__.py:4-6 -/
def Boolf.isSharp (f : Boolf) (arity : Int) : Except Err Bool := do return decide ((← f.tt (.arity arity)).weight % 2 ≠ 0)

/-- boolf/methods/_foibles/__init__.py:9-11 -/
def Boolf.isAcute (f : Boolf) (arity : Int) : Except Err Bool := do return (← f.isUgly) ^^ (← f.isSharp arity)

/-- boolf/methods/_foibles/__init__.py:14-16 -/
def Boolf.isRude (f : Boolf) (arity : Int) : Except Err Bool := do return (← f.isOdd) ^^ (← f.isSharp arity)

/-- boolf/methods/_foibles/__init__.py:19-21 -/
def Boolf.isRough (f : Boolf) (arity : Int) : Except Err Bool := do return (← f.isOdious) ^^ (← f.isSharp arity)

/-- boolf/methods/_quadrant_extensions/__init__.py:4-9 -/
def Boolf.weightQuadrant (f : Boolf) (arity : Option Int := none) : Except Err Nat := do
  let arity := arity.getD f.adicity
  return (← f.isRough arity).toNat + 2 * (← f.isOdious).toNat

/-- boolf/methods/_quadrant_extensions/__init__.py:12-17 -/
def Boolf.acuteQuadrant (f : Boolf) (arity : Option Int := none) : Except Err Nat := do
  let arity := arity.getD f.adicity
  return (← f.isUgly).toNat + 2 * (← f.isAcute arity).toNat

/-- boolf/methods/_quadrant_extensions/__init__.py:20-25 -/
def Boolf.octant (f : Boolf) (arity : Option Int) : Except Err Nat := do
  let arity := arity.getD f.adicity
  return (← f.quadrant) + 4 * (← f.isAcute arity).toNat

/-- boolf/methods/noble_quadrant/__init__.py:4-14 -/
noncomputable def Boolf.nobleQuadrant (f : Boolf) (arity : Option Int := none) : Except Err Nat := do
  let arity := arity.getD f.adicity
  if (← f.isNoble (some arity)) then do
    let isStrong ← (← f.tt (.arity arity)).getItem 1
    return isStrong.toNat + (← f.isOdious).toNat * 2
  else .error .valueError

/-! ## Patrons -/

/-- boolf/methods/_patron/__init__.py:4-6 -/
def Boolf.patronInt (f : Boolf) (arity : Int) : Except Err Nat := do
  let intval := (← f.tt (.arity arity)).intval
  return intval ^^^ (← f.zhe)

/-- boolf/methods/_patron/__init__.py:9-10 -/
noncomputable def Boolf.patronIndex (f : Boolf) (arity : Nat) : Except Err Nat := do nobleToIndex (← f.patronInt arity) arity

/-- boolf/methods/_patron/__init__.py:13-14 -/
noncomputable def Boolf.patronBoolf (f : Boolf) (arity : Int) : Except Err Boolf := do f.xor (← f.twin (some arity))

/-- boolf/methods/_patron/__init__.py:19-20 -/
noncomputable def Boolf.patronRoyal (f : Boolf) (arity : Nat) : Except Err Nat := do nobleToRoyal (← f.patronInt arity) arity

/-- boolf/methods/_patron/__init__.py:23-24 -/
noncomputable def Boolf.patronQuadrant (f : Boolf) (arity : Nat) : Except Err Nat := do nobleToQuadrant (← f.patronInt arity) arity

/-! ## Leaders -/

/-- boolf/methods/leader/__init__.py:4-18; the quadrant is always below 4 -/
noncomputable def Boolf.leader (f : Boolf) (arity : Option Int := none) : Except Err Boolf := do
  let arity := arity.getD f.adicity
  let q ← f.quadrant
  if q = 0 then return f
  else if q = 1 then (← (← f.twin (some arity)).complement).twin (some arity)
  else if q = 2 then (← (← (← f.complement).twin (some arity)).complement).twin (some arity)
  else f.complement

/-! ## Consuls and prefects -/

/-- boolf/methods/consul/__init__.py:10-18 -/
def Boolf.consul (f : Boolf) (arg : TTArg := .noArg) : Except Err Nat := do
  return (← f.tt arg).vector.zipIdx.foldl (fun result vk => if vk.1 then result ^^^ vk.2 else result) 0

/-- boolf/methods/consul/__init__.py:5-7 -/
def Boolf.consulWeight (f : Boolf) (arg : TTArg) : Except Err Nat := do return intToWeight (← f.consul arg)

/-- a/arity_to_walsh_matrix/__init__.py:5-21 without `negate` and for a natural arity: the rows -/
def arityToWalshMatrix (arity : Nat) : Except Err (List (List Nat)) :=
  if arity = 0 then .ok [[0]]
  else do
    let prefab ← makeAtompatterns arity
    (List.range (1 <<< arity)).mapM fun i : Nat => do
      let binv ← makeLinearBinv { walsh := some (i : Int), arity := some (arity : Int), parity := some 0, prefab := some prefab }
      return binv.vector.map Bool.toNat

/-- boolf/methods/consul/__init__.py:21-41 without `prefab_matrix`; entry `j` of `np.dot(tt, matrix)` is the sum of the products with column `j`. -/
def Boolf.consulSlow (f : Boolf) (arity : Nat) : Except Err Nat := do
  let tt := (← f.tt (.arity arity)).vector.map Bool.toNat
  if (← logInt tt.length) = arity then do
    let matrix ← arityToWalshMatrix arity
    let dot := (List.range (1 <<< arity)).map fun j => (List.zipWith (fun t row => t * row.getD j 0) tt matrix).sum
    walshFunctionToIndex (← BV.mk { vector := some (.list (dot.map fun x => ((x % 2 : Nat) : Int))) })
  else .error .assertion

/-- boolf/a/twin_misc/__init__.py:54-55 -/
def zheVectorToPrefect (tt : List Bool) (arity : Nat) : Except Err (List Bool) := rawTTGen tt .XAND arity

/-- boolf/a/twin_misc/__init__.py:58-59 -/
def zheExposetToPrefect (exposet : List Nat) (arity : Nat) : Except Err (List Nat) := rawExposetGen exposet .XAND arity

/-- boolf/a/twin_misc/__init__.py:62-66 -/
def zheToPrefect (n arity : Nat) : Except Err (Nat × Nat) := do
  let binv ← BV.mk { intval := some (n : Int), length := some ((1 <<< arity : Nat) : Int) }
  linearToWalshAndOddness (← ofBools (← zheVectorToPrefect binv.vector arity))

/-- boolf/metributes/_prefect/__init__.py:9-23 -/
def Boolf.prefectTT (f : Boolf) : Except Err Binv := do
  let twinTT ← vectorToTwin (← f.tt).vector f.adicity
  ofBools (← zheVectorToPrefect twinTT f.adicity)

/-- boolf/metributes/_prefect/__init__.py:27-30 -/
noncomputable def Boolf.prefectBoolf (f : Boolf) : Except Err Boolf := do newTT (.binv (← f.prefectTT))

/-- boolf/metributes/_prefect/__init__.py:34-35 -/
def Boolf.prefectWalshAndOddness (f : Boolf) : Except Err (Nat × Nat) := do linearToWalshAndOddness (← f.prefectTT)

/-- boolf/metributes/_prefect/__init__.py:39-40 -/
def Boolf.prefectLeaderAndQuadrant (f : Boolf) : Except Err (Nat × Nat) := do linearToLeaderAndQuadrant (← f.prefectTT)

end Verif.BF
