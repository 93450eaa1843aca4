import Verif.Walsh.Linear
import Verif.SigPerm.Model
import Verif.A.Det
import Verif.A.Primes
import Mathlib.LinearAlgebra.Matrix.Adjugate

/-!
# Model of walsh_perm/, a/walsh_function_to_index and a/_linear_to_index_pair

Simplifications, valid for the whole file:
* a `numpy` matrix is a `SG.Mat` (numbers of rows and columns, and entries that are exact integers);
* `log(n, 2)` and `np.linalg.inv` are exact (the code uses floating point numbers);
* the cached properties are functions of the attributes set by the constructor;
* vectors given as tuples behave like lists (`vector in [[], [1]]` is false for the tuples `()` and `(1,)`, but then
  `shrink_matrix` raises the same `IsNeutralFail`);
* nested lists as matrix argument (which raise `AttributeError` in `matrix_to_vector`, unless they shrink to nothing) are not modelled.
-/

namespace Verif.W
open Verif.Py Verif.BV Verif.P
open Verif.A hiding Mat
open Verif.SG (Mat)

/-! ### helpers of the constructor -/

/-- walsh_perm/a/vector_class/__init__.py:6-28, the attribute `mapping` of a `Vector` -/
abbrev Vec := Dict Nat Nat

/-- walsh_perm/a/vector_class/__init__.py:20-26 for a list (whose entries are natural by typing) -/
def Vec.ofList (l : List Nat) : Vec := Dict.ofPairs ((l.zipIdx.map (fun p => (p.2, p.1))).filter fun kv => 2 ^ kv.1 ≠ kv.2)

/-- walsh_perm/a/vector_class/__init__.py:28 -/
def Vec.length (v : Vec) : Nat := if v = [] then 0 else maxNat v.keys + 1

/-- walsh_perm/a/vector_class/__init__.py:30-35 -/
def Vec.get (v : Vec) (i : Nat) : Nat := (v.get? i).getD (2 ^ i)

/-- walsh_perm/a/vector_class/__init__.py:39-40 -/
def Vec.eq (v w : Vec) : Bool := Dict.eq v w

/-- walsh_perm/a/vector_class/__init__.py:45-47 -/
def Vec.extendToLength (v : Vec) (length : Nat) : Except Err (List Nat) :=
  if length ≥ Vec.length v then .ok ((List.range length).map (Vec.get v)) else .error .extendedLengthTooSmall

/-- walsh_perm/a/vector_to_matrix/__init__.py:9-20; `none` stands for `IsNeutralFail` -/
def vectorToMatrix (vector : List Int) : Except Err (Option Mat) :=
  if vector = [] ∨ vector = [1] then .ok none
  else
    let degree := vector.length
    match vector.mapM (fun x => mk { intval := some x, length := some degree }) with
    | .error e => .error e
    | .ok cols => .ok (some ⟨degree, degree, fun m n => match cols[n]? with
      | some c => ((c.vector.getD m false).toNat : Int)
      | none => 0⟩)

/-- walsh_perm/a/matrix_to_vector/__init__.py:4-16 -/
def matrixToVector (matrix : Mat) (byRow : Bool := false) : Except Err (List Nat) :=
  (List.range matrix.rows).mapM fun i =>
    match mk { vector := some (.list ((List.range matrix.rows).map fun j => if byRow then matrix.get i j else matrix.get j i)) } with
    | .error e => .error e
    | .ok b => .ok b.intval

/-- walsh_perm/a/shrink_matrix/__init__.py:18-27, for the remaining degree; `none` stands for `IsNeutralFail` -/
def shrinkLoop (matrix : Mat) : Nat → Option Nat
  | 0 => none
  | 1 => none
  | d + 2 =>
    let last := d + 1
    if ((List.range (d + 2)).map (matrix.get last ·)).sum = ((List.range (d + 2)).map (matrix.get · last)).sum ∧
        ((List.range (d + 2)).map (matrix.get · last)).sum = matrix.get last last ∧ matrix.get last last = 1
    then shrinkLoop matrix (d + 1) else some (d + 2)

/-- walsh_perm/a/shrink_matrix/__init__.py:9-29 -/
def shrinkMatrix (matrix : Mat) : Except Err (Option (Mat × Nat)) :=
  if matrix.rows * matrix.cols > 1 then
    if matrix.rows = matrix.cols then
      match shrinkLoop matrix matrix.rows with
      | none => .ok none
      | some d => .ok (some (⟨d, d, matrix.get⟩, d))
    else .error .notSquare
  else .ok none

/-! ### objects -/

/-- The attributes of a `WalshPerm`; walsh_perm/__init__.py:38-46 and 51-55 -/
structure Walsh where
  neutral : Bool
  degree : Nat
  matrixMinimal : Mat
  vectorObject : Vec
  transposeVectorObject : Vec

/-- walsh_perm/__init__.py:51-55 -/
def neutralWalsh : Walsh := ⟨true, 0, ⟨0, 0, fun _ _ => 1⟩, [], []⟩

/-- The attribute `perilen`; walsh_perm/__init__.py:46 and perm/__init__.py:69-74 -/
def Walsh.perilen (w : Walsh) : Option Nat := if w.neutral then none else some (2 ^ w.degree)

/-- walsh_perm/metributes/mapping/__init__.py:13-32 -/
def Walsh.mapping (w : Walsh) : Except Err (Dict Nat Nat) :=
  if w.neutral then .ok []
  else do
    let atoms ← makeAtompatterns w.degree
    let longMatrix ← (List.range w.degree).mapM fun m =>
      makeLinearBinv { walsh := some (Vec.get w.transposeVectorObject m : Int), arity := some w.degree, prefab := some atoms }
    let sequence ← (List.range (2 ^ w.degree)).mapM fun key => do
      let column ← longMatrix.mapM (·.getItem key)
      return (← ofBools column).intval
    if sorted sequence = List.range (2 ^ w.degree) then
      .ok (Dict.ofPairs ((sequence.zipIdx.map (fun p => (p.2, p.1))).filter fun kv => kv.2 ≠ kv.1))
    else .error .invalidMatrix

/-- The object as seen by the methods inherited from `Perm`.  (A `WalshPerm` that is not neutral has no attribute `length`; the methods
modelled for `Perm` do not read it when `perilen` is set.) -/
def Walsh.asPerm (w : Walsh) : Except Err Perm :=
  match w.mapping with
  | .error e => .error e
  | .ok m => .ok ⟨w.neutral, m, w.perilen, w.perilen.getD 0⟩

/-- walsh_perm/__init__.py:37-49 -/
def newMatrix (matrix : Mat) (trust : Bool := false) : Except Err Walsh :=
  match shrinkMatrix matrix with
  | .error e => .error e
  | .ok none => .ok neutralWalsh
  | .ok (some (matrixMinimal, degree)) =>
    match matrixToVector matrix with
    | .error e => .error e
    | .ok v =>
      match matrixToVector matrix true with
      | .error e => .error e
      | .ok tv =>
        let w : Walsh := ⟨false, degree, matrixMinimal, Vec.ofList v, Vec.ofList tv⟩
        if trust then .ok w
        else match w.mapping with
          | .error e => .error e
          | .ok _ => .ok w

/-- walsh_perm/__init__.py:27-35 and 37-49 for a vector -/
def newVector (vector : List Int) (trust : Bool := false) : Except Err Walsh :=
  match vectorToMatrix vector with
  | .error e => .error e
  | .ok none => .ok neutralWalsh
  | .ok (some m) => newMatrix m trust

/-- perm/__init__.py:79-93 for a `WalshPerm` and a natural argument -/
def Walsh.get (w : Walsh) (i : Nat) : Except Err Nat :=
  match w.asPerm with
  | .error e => .error e
  | .ok p => .ok (p.get i)

/-- a/is_power_of_two/__init__.py:6-14 -/
def isPowerOfTwo (n : Nat) : Bool := decide (n ≠ 0 ∧ 2 ^ Nat.log2 n = n)

/-- a/walsh_function_to_index/__init__.py:12-45, for the `Binv` of line 12.  For a vector of length 1 the list in line 35 is `[0.5]`, and the
constructor of `Binv` raises an `IntvalError`. -/
def walshFunctionToIndex (binv : Binv) (trust : Bool := false) : Except Err Nat :=
  if binv.eq ⟨[false]⟩ then .ok 0
  else
    let length := binv.length
    if isPowerOfTwo length then
      let degree := Nat.log2 length
      if trust then do
        let shortVector ← ((List.range degree).map (2 ^ ·)).mapM binv.getItem
        return (← ofBools shortVector).intval
      else if degree = 0 then .error .intvalError
      else do
        let wpVector := 2 ^ (degree - 1) :: (List.range' 1 (degree - 1)).map fun i => 2 ^ (degree - i - 1) * 3
        let wp ← newVector (wpVector.map Int.ofNat)
        let rowIndex ← wp.get binv.changes
        if binv.eq (← makeLinearBinv { walsh := some (rowIndex : Int), arity := some degree }) then .ok rowIndex
        else .error .notWalshRow
    else .error .valueError

/-- The argument `perm`: a `Perm`, or a list -/
inductive PermArg
  | perm (p : Perm)
  | list (l : List Nat)

/-- walsh_perm/a/perm_to_matrix/__init__.py:17-20 -/
def permArgSeq : PermArg → Except Err (List Nat)
  | .perm p => p.sequence
  | .list l => if sorted l = List.range l.length then .ok l else .error .notEvenPermutation

/-- walsh_perm/a/perm_to_matrix/__init__.py:36-42: the rows are read as Walsh functions -/
def rowIndices (rows : List (List Bool)) (trust : Bool) : Except Err (List Nat) :=
  match rows.mapM (fun row => do walshFunctionToIndex (← ofBools row) trust) with
  | .error .notWalshRow => .error .invalidPerm
  | .error e => .error e
  | .ok l => .ok l

/-- walsh_perm/a/perm_to_matrix/__init__.py:44-46, the entries filled into a matrix of zeros -/
def matrixOfRows (degree : Nat) (rows : List Binv) : Mat :=
  ⟨degree, degree, fun m n => match rows[m]? with
    | some c => ((c.vector.getD n false).toNat : Int)
    | none => 0⟩

/-- walsh_perm/a/perm_to_matrix/__init__.py:14-48; `none` stands for `IsNeutralFail`.  `log(0, 2)` raises a `ValueError`. -/
def permToMatrix (arg : PermArg) (trust : Bool := false) : Except Err (Option Mat) := do
  let perm ← permArgSeq arg
  let perilen := perm.length
  if perilen = 0 then .error .valueError
  else if isPowerOfTwo perilen then
    let degree := Nat.log2 perilen
    if perm = [0] ∨ perm = [0, 1] then .ok none
    else do
      let cols ← perm.mapM fun x : Nat => mk { intval := some (x : Int), length := some degree }
      let longMatrix := (List.range degree).map fun m => cols.map fun c => c.vector.getD m false
      let tv ← rowIndices longMatrix trust
      let rows ← tv.mapM fun x : Nat => mk { intval := some (x : Int), length := some degree }
      .ok (some (matrixOfRows degree rows))
  else .error .permLength

/-- walsh_perm/__init__.py:27-35 and 37-49 for a permutation -/
def newPerm (perm : PermArg) (trust : Bool := false) : Except Err Walsh :=
  match permToMatrix perm trust with
  | .error e => .error e
  | .ok none => .ok neutralWalsh
  | .ok (some m) => newMatrix m trust

/-- The arguments of the constructor; walsh_perm/__init__.py:15 -/
structure Args where
  vector : Option (List Int) := none
  matrix : Option Mat := none
  perm : Option PermArg := none
  trust : Bool := false

/-- walsh_perm/__init__.py:15-49 -/
def new (a : Args) : Except Err Walsh :=
  match a.vector, a.matrix, a.perm with
  | none, none, none => .ok neutralWalsh
  | some v, none, none => newVector v a.trust
  | none, some m, none => newMatrix m a.trust
  | none, none, some p => newPerm p a.trust
  | _, _, _ => .error .tooManyArguments

/-! ### methods -/

/-- walsh_perm/methods/matrix/__init__.py:8-17 -/
def Walsh.matrix (w : Walsh) (size : Option Nat := none) : Except Err Mat :=
  let size := size.getD w.degree
  if size ≥ w.degree then
    .ok ⟨size, size, fun i j => if i < w.degree ∧ j < w.degree then w.matrixMinimal.get i j else if i = j then 1 else 0⟩
  else .error .requestedDegree

/-- walsh_perm/methods/vector/__init__.py:6-13 -/
def Walsh.vector (w : Walsh) (length : Option Nat := none) : Except Err (List Nat) :=
  let length := length.getD w.degree
  if length ≥ w.degree then Vec.extendToLength w.vectorObject length else .error .requestedDegree

/-- walsh_perm/methods/transpose_vector/__init__.py:6-13 -/
def Walsh.transposeVector (w : Walsh) (length : Option Nat := none) : Except Err (List Nat) :=
  let length := length.getD w.degree
  if length ≥ w.degree then Vec.extendToLength w.transposeVectorObject length else .error .requestedDegree

/-- walsh_perm/__init__.py:60-64, as a list of characters -/
def Walsh.str (w : Walsh) : Except Err (List Char) :=
  if w.neutral then .ok "WalshPerm()".toList
  else match w.vector with
    | .error e => .error e
    | .ok v => .ok ("WalshPerm(".toList ++ (listStr natStr v ++ ")".toList))

/-- walsh_perm/__init__.py:69-73 for two `WalshPerm` objects -/
def Walsh.eq (w v : Walsh) : Bool := if w.neutral && v.neutral then true else Vec.eq w.vectorObject v.vectorObject

/-- walsh_perm/__init__.py:69-71 and 74-75 for a `Perm` that is no `WalshPerm` -/
def Walsh.eqPerm (w : Walsh) (p : Perm) : Except Err Bool :=
  if w.neutral && p.neutral then .ok true
  else match w.asPerm with
    | .error e => .error e
    | .ok q => .ok (q.eq p)

/-- walsh_perm/__init__.py:77-84 for two `WalshPerm` objects -/
def Walsh.mul (w v : Walsh) : Except Err Walsh := do
  let degree := max w.degree v.degree
  let a ← w.matrix (some degree)
  let b ← v.matrix (some degree)
  newMatrix ⟨degree, degree, fun i j => (a.dot b).get i j % 2⟩

/-- walsh_perm/__init__.py:77-79 for a `Perm` as second factor -/
def Walsh.mulPerm (w : Walsh) (p : Perm) : Except Err Perm := do (← w.asPerm).mul p

/-- walsh_perm/__init__.py:92-100 -/
def Walsh.sequence (w : Walsh) (length : Option Nat := none) (degree : Option Nat := none) : Except Err (List Nat) :=
  match length, degree with
  | some _, some _ => .error .redundantParameters
  | some l, none =>
    if isPowerOfTwo l then
      match w.perilen with
      | none => .error .typeError
      | some p => if l ≥ p then do (← w.asPerm).sequence (some l) else .error .requestedDegree
    else .error .notPowerOfTwo
  | none, some d => if d ≥ w.degree then do (← w.asPerm).sequence (some (2 ^ d)) else .error .requestedDegree
  | none, none => do (← w.asPerm).sequence none

/-- perm/metributes/cycles.py for a `WalshPerm` -/
def Walsh.cycles (w : Walsh) : Except Err (List (List Nat)) := do (← w.asPerm).cycles

/-- walsh_perm/__init__.py:102-110 -/
def Walsh.cyclesDynamic (w : Walsh) (length : Option Nat := none) (degree : Option Nat := none) : Except Err (List (List Nat)) :=
  match length, degree with
  | some _, some _ => .error .redundantParameters
  | some l, none =>
    if isPowerOfTwo l then
      match w.perilen with
      | none => .error .typeError
      | some p => if l ≥ p then do (← w.asPerm).cyclesDynamic (some l) else .error .requestedDegree
    else .error .notPowerOfTwo
  | none, some d => if d ≥ w.degree then do (← w.asPerm).cyclesDynamic (some (2 ^ d)) else .error .requestedDegree
  | none, none => do (← w.asPerm).cyclesDynamic none

/-- walsh_perm/metributes/transpose/__init__.py:4-11 -/
def Walsh.transpose (w : Walsh) : Except Err Walsh := do newVector ((← w.transposeVector).map Int.ofNat)

/-- walsh_perm/metributes/determinant/__init__.py:6-11; the matrix as list of rows -/
def Walsh.determinant (w : Walsh) : Except Err Int :=
  integerDeterminant ((List.range w.matrixMinimal.rows).map fun i => (List.range w.matrixMinimal.cols).map fun j => w.matrixMinimal.get i j)

/-- the minimal matrix as a matrix in the sense of mathlib -/
def Walsh.intMatrix (w : Walsh) : Matrix (Fin w.degree) (Fin w.degree) Int := Matrix.of fun i j => w.matrixMinimal.get i j

open Classical in
/-- walsh_perm/metributes/inverse/__init__.py:8-28.  `np.linalg.inv` is the exact inverse, i.e. the adjugate matrix divided by the determinant;
it raises `LinAlgError` if the determinant is 0. -/
noncomputable def Walsh.inverse (w : Walsh) : Except Err Walsh :=
  let det := w.intMatrix.det
  if det = 0 then .error .linAlg
  else if ∀ i j, det ∣ w.intMatrix.adjugate i j then
    newMatrix ⟨w.degree, w.degree, fun i j =>
      if h : i < w.degree ∧ j < w.degree then w.intMatrix.adjugate ⟨i, h.1⟩ ⟨j, h.2⟩ / det % 2 else 0⟩ true
  else do
    let perm ← mkPerm (.cycles (← w.cycles)) w.perilen
    newPerm (.perm (← perm.inverse)) true

/-- perm/__init__.py:154-155 and 160-161 for `WalshPerm` objects -/
def Walsh.mulLoop (factor : Walsh) : Nat → Walsh → Except Err Walsh
  | 0, r => .ok r
  | n + 1, r =>
    match r.mul factor with
    | .error e => .error e
    | .ok r' => mulLoop factor n r'

/-- walsh_perm/__init__.py:86-90 and perm/__init__.py:147-162 -/
noncomputable def Walsh.pow (w : Walsh) (exponent : Int) : Except Err Walsh :=
  if exponent = 0 then .ok neutralWalsh
  else if exponent = 1 then .ok w
  else if exponent = -1 then w.inverse
  else if exponent > 1 then Walsh.mulLoop w (exponent - 1).toNat w
  else
    match w.inverse with
    | .error e => .error e
    | .ok inv => Walsh.mulLoop inv (-exponent - 1).toNat inv

/-- walsh_perm/metributes/complement_distance/__init__.py:4-15; `list.index` raises `ValueError` if the element is missing.  The subtraction
in line 13 is one of naturals that do not exceed `highest_element`. -/
def Walsh.complementDistance (w : Walsh) : Except Err Nat :=
  if w.neutral then .ok 0
  else match w.sequence with
    | .error e => .error e
    | .ok s =>
      let highest := 2 ^ w.degree - 1
      match s.findIdx? (· == highest) with
      | none => .error .valueError
      | some i => .ok (highest - i)

/-- walsh_perm/methods/complement_pattern/__init__.py:6-10 -/
def Walsh.complementPattern (w : Walsh) (degree : Nat) : Except Err Nat :=
  if degree ≥ w.degree then
    match w.complementDistance with
    | .error e => .error e
    | .ok d => .ok (2 ^ degree - 1 - d)
  else .error .requestedDegree

/-! ### linear functions -/

/-- a/_linear_to_index_pair/__init__.py:22-25, for the `Binv` of lines 13-18 -/
def linearToWalshAndOddness (binv : Binv) (trust : Bool := false) : Except Err (Nat × Nat) := do
  let isOdd := (← binv.getItem 0).toNat
  let evenBinv ← if isOdd ≠ 0 then binv.complement else .ok binv
  return (← walshFunctionToIndex evenBinv trust, isOdd)

/-- a/_linear_to_index_pair/__init__.py:32-40 -/
def linearToLeaderAndQuadrant (binv : Binv) (trust : Bool := false) : Except Err (Nat × Nat) := do
  let (walshIndex, isOdd) ← linearToWalshAndOddness binv trust
  let walshIndexIsOdious := intToWeight walshIndex % 2
  let isOdious := walshIndexIsOdious ^^^ isOdd
  let quadrant := isOdd + 2 * isOdious
  let leaderIndex ← if walshIndexIsOdious ≠ 0 then odiousToIndex walshIndex else evilToIndex walshIndex
  return (leaderIndex, quadrant)

end Verif.W
