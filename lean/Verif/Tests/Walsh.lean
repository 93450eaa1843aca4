import Verif.Walsh.Props4

/-!
# The tests of walsh_perm/, replayed on the model

The expected values are those of the test files, which are named before each example.  These are no proofs of properties; they check that the model is one of this
code.  The inverse of the model is not computable, so it is tested by the product with the expected one.
-/

set_option synthInstance.maxSize 2048
set_option synthInstance.maxHeartbeats 400000

namespace Verif.W
open Verif.Py Verif.P Verif.BV
open Verif.SG (Mat)

/-- the matrix with these rows -/
private def ofRows (l : List (List Int)) : Mat := ⟨l.length, (l.headD []).length, fun i j => (l.getD i []).getD j 0⟩
/-- the rows of a matrix -/
private def rows (m : Mat) : List (List Int) := (List.range m.rows).map fun i => (List.range m.cols).map (m.get i)
/-- `WalshPerm(l)` -/
private def vec (l : List Int) : Except Err Walsh := new { vector := some l }
/-- `WalshPerm(matrix=l)` -/
private def mat (l : List (List Int)) : Except Err Walsh := new { matrix := some (ofRows l) }
/-- `WalshPerm(perm=l)` -/
private def per (l : List Nat) : Except Err Walsh := new { perm := some (.list l) }
/-- `a == b` -/
private def same (a b : Except Err Walsh) : Except Err Bool := do return (← a).eq (← b)
/-- `a == Perm(l, perilen)` -/
private def sameP (a : Except Err Walsh) (l : Arg) (perilen : Nat) : Except Err Bool := do (← a).eqPerm (← mkPerm l (some perilen))
/-- `a * b` -/
private def times (a b : Except Err Walsh) : Except Err Walsh := do (← a).mul (← b)
/-- the error of a constructor -/
private def err (a : Except Err Walsh) : Option Err := match a with
  | .error e => some e
  | .ok _ => none

/- walsh_perm/test/01_neutral/wp_1_test.py:4-27 (without one-dimensional matrices) -/
example : [vec [], vec [1], vec [1, 2], vec [1, 2, 4], vec [1, 2, 4, 8], mat [[1]], mat [[1, 0], [0, 1]], mat [[1, 0, 0], [0, 1, 0], [0, 0, 1]],
      per [0], per [0, 1], per [0, 1, 2, 3], per [0, 1, 2, 3, 4, 5, 6, 7]].map (same (new {})) = List.replicate 12 (.ok true) ∧
    (new {}).bind (·.mapping) = .ok [] ∧ (new {}).bind (·.moved) = .ok [] := by decide +kernel

/- walsh_perm/test/02_misc/wp_2_test.py:11-38 -/
example : let p := vec [7, 5, 4]
    let p3 := [0, 7, 5, 2, 4, 3, 1, 6]
    same (vec [7, 5, 4, 8]) p = .ok true ∧ p.bind (·.sequence) = .ok p3 ∧ p.bind (·.sequence (some 8)) = .ok p3 ∧
    p.bind (·.sequence none (some 3)) = .ok p3 ∧ p.bind (·.sequence (some 16)) = .ok (p3 ++ p3.map (· + 8)) ∧
    p.bind (·.sequence none (some 4)) = .ok (p3 ++ p3.map (· + 8)) ∧ sameP p (.seq p3) 8 = .ok true ∧
    sameP p (.seq (p3 ++ p3.map (· + 8))) 16 = .ok true := by decide +kernel
example : (times (vec [8, 12, 2, 3]) (vec [6, 9, 1, 2])).bind (·.vector (some 4)) = .ok [14, 11, 8, 12] ∧
    (times (vec [14, 11, 8, 12]) (vec [15, 9, 12, 4])).bind (·.vector (some 4)) = .ok [1, 2, 4, 8] := by decide +kernel

/- walsh_perm/test/02_misc/wp_2_test.py:41-62 -/
example : let cycles := [[1, 8, 3, 4, 2, 12], [5, 10, 15], [6, 14, 13, 9, 11, 7]]
    let wp := vec [8, 12, 2, 3]
    let p := mkPerm (.cycles cycles) (some 16)
    let long := cycles ++ cycles.map (·.map (· + 16))
    wp.map (·.perilen) = .ok (some 16) ∧ p.map (·.perilen) = .ok (some 16) ∧ wp.bind (·.cycles) = .ok cycles ∧ p.bind (·.cycles) = .ok cycles ∧
    p.bind (·.cyclesDynamic (some 16)) = .ok cycles ∧ wp.bind (·.cyclesDynamic) = .ok cycles ∧ wp.bind (·.cyclesDynamic (some 16)) = .ok cycles ∧
    wp.bind (·.cyclesDynamic none (some 4)) = .ok cycles ∧ p.bind (·.cyclesDynamic (some 32)) = .ok long ∧ wp.bind (·.cyclesDynamic (some 32)) = .ok long ∧
    wp.bind (·.cyclesDynamic none (some 5)) = .ok long ∧ (wp.bind (·.asPerm)).bind (·.order) = .ok 6 ∧ p.bind (·.order) = .ok 6 ∧
    sameP wp (.cycles cycles) 16 = .ok true ∧ (vec [1, 3, 6]).bind (·.cycles) = .ok [[2, 3], [4, 6, 5, 7]] ∧ (vec [2, 1]).bind (·.cycles) = .ok [[1, 2]] ∧
    (new {}).bind (·.cycles) = .ok [] := by decide +kernel

/- walsh_perm/test/02_misc/wp_2_test.py:65-89 -/
example : let p := vec [1, 3]
    [p.bind (·.sequence none (some 2)), p.bind (·.sequence (some 4)), p.bind (·.sequence none (some 3)), p.bind (·.sequence (some 8))] =
      [.ok [0, 1, 3, 2], .ok [0, 1, 3, 2], .ok [0, 1, 3, 2, 4, 5, 7, 6], .ok [0, 1, 3, 2, 4, 5, 7, 6]] ∧
    [p.bind (·.cyclesDynamic none (some 2)), p.bind (·.cyclesDynamic (some 4)), p.bind (·.cyclesDynamic none (some 3)), p.bind (·.cyclesDynamic (some 8))] =
      [.ok [[2, 3]], .ok [[2, 3]], .ok [[2, 3], [6, 7]], .ok [[2, 3], [6, 7]]] ∧
    [p.bind (·.sequence none (some 1)), p.bind (·.sequence (some 2))] = List.replicate 2 (.error .requestedDegree) ∧
    [p.bind (·.cyclesDynamic none (some 1)), p.bind (·.cyclesDynamic (some 2))] = List.replicate 2 (.error .requestedDegree) ∧
    p.bind (·.sequence (some 12)) = .error .notPowerOfTwo ∧ p.bind (·.cyclesDynamic (some 12)) = .error .notPowerOfTwo ∧
    p.bind (·.sequence (some 4) (some 2)) = .error .redundantParameters ∧ p.bind (·.cyclesDynamic (some 4) (some 2)) = .error .redundantParameters := by
  decide +kernel

/- walsh_perm/test/02_misc/wp_2_test.py:92-122 -/
example : let a := mat [[1, 0, 1, 0], [0, 0, 1, 1], [1, 1, 0, 1], [0, 1, 1, 0]]
    let b := mat [[1, 1, 1, 0], [1, 1, 0, 1], [1, 0, 1, 1], [0, 1, 1, 1]]
    a.bind (·.determinant) = .ok 3 ∧ a.bind (·.vector) = .ok [5, 12, 11, 6] ∧
    sameP a (.cycles [[1, 5, 14], [2, 12, 13, 8, 6, 7], [3, 9], [4, 11, 15]]) 16 = .ok true ∧
    b.bind (·.determinant) = .ok (-3) ∧ b.bind (·.vector) = .ok [7, 11, 13, 14] ∧
    sameP b (.cycles [[1, 7], [2, 11], [3, 12], [4, 13], [5, 10], [8, 14]]) 16 = .ok true ∧
    (times a b).bind (·.vector) = .ok [2, 15, 8, 1] ∧ (times b a).bind (·.vector) = .ok [10, 3, 2, 6] := by decide +kernel

/- walsh_perm/test/03_bitperm/wp_3_test.py:6-19 (line 19 as a product) -/
example : let p3 := vec [4, 1, 2, 8]
    let p8 := vec [1, 8, 2, 4]
    let p17 := vec [8, 4, 1, 2]
    let p18 := vec [2, 4, 8, 1]
    let p7 := vec [2, 1, 8, 4]
    sameP (vec [2, 4, 1]) (.seq [0, 2, 4, 6, 1, 3, 5, 7]) 8 = .ok true ∧
    sameP (vec [2, 4, 8, 1]) (.seq [0, 2, 4, 6, 8, 10, 12, 14, 1, 3, 5, 7, 9, 11, 13, 15]) 16 = .ok true ∧
    same (times p17 p18) p3 = .ok true ∧ same (times p18 p17) p8 = .ok true ∧ same (times p7 p7) (new {}) = .ok true := by decide +kernel
example : same ((vec [8, 4, 1, 2]).bind (·.pow 2)) (vec [2, 1, 8, 4]) = .ok true := by decide +kernel

/- walsh_perm/test/03_bitperm/wp_3_test.py:22-54 (line 36 as a product) -/
example : let p3 := mkPerm (.seq [2, 0, 1])
    (p3.bind (·.inverse)).bind (·.applyOnVector [1, 2, 4]) = .ok [4, 1, 2] ∧ p3.bind (·.applyOnVector [1, 2, 4]) = .ok [2, 4, 1] ∧
    same (times (vec [4, 1, 2]) (vec [2, 4, 1])) (new {}) = .ok true ∧
    (vec [4, 1, 2]).bind (·.sequence) = .ok [0, 4, 1, 5, 2, 6, 3, 7] ∧ (vec [2, 4, 1]).bind (·.sequence) = .ok [0, 2, 4, 6, 1, 3, 5, 7] ∧
    ((vec [2, 4, 1]).bind (·.asPerm)).bind (·.applyOnVector (List.range 8)) = .ok [0, 4, 1, 5, 2, 6, 3, 7] ∧
    (List.range 8).map (fun i => do
      return (← ofBools (← (← p3).applyOnVector (← mk { intval := some (i : Int), length := some 3 }).vector)).intval) =
        ([0, 4, 1, 5, 2, 6, 3, 7].map Except.ok : List (Except Err Nat)) := by decide +kernel

/- walsh_perm/test/04_powers/wp_4_test.py:10-51 (without negative exponents) -/
private noncomputable def power (i : Nat) : Except Err (List Nat × Int × Nat × List (List Nat)) := do
  let p ← (← vec [15, 5, 11, 3]).pow i
  return (← p.vector (some 4), ← p.determinant, ← (← p.asPerm).order, ← p.cycles)
example : ((vec [15, 5, 11, 3]).bind (·.matrix)).map rows = .ok [[1, 1, 1, 1], [1, 0, 1, 1], [1, 1, 0, 0], [1, 0, 1, 0]] := by decide +kernel
example : [1, 2, 3, 4, 5].map power = [
    .ok ([15, 5, 11, 3], -1, 15, [[1, 15, 2, 5, 4, 11, 9, 12, 8, 3, 10, 6, 14, 13, 7]]),
    .ok ([2, 4, 9, 10], 1, 15, [[1, 2, 4, 9, 8, 10, 14, 7, 15, 5, 11, 12, 3, 6, 13]]),
    .ok ([5, 11, 12, 6], -3, 5, [[1, 5, 9, 3, 14], [2, 11, 8, 6, 7], [4, 12, 10, 13, 15]]),
    .ok ([4, 9, 8, 14], -1, 15, [[1, 4, 8, 14, 15, 11, 3, 13, 2, 9, 10, 7, 5, 12, 6]]),
    .ok ([11, 12, 3, 13], 1, 3, [[1, 11, 10], [2, 12, 14], [3, 7, 4], [5, 8, 13], [6, 15, 9]])] := by decide +kernel
example : [6, 7, 8, 9, 10].map power = [
    .ok ([9, 8, 10, 7], 1, 5, [[1, 9, 14, 5, 3], [2, 8, 7, 11, 6], [4, 10, 15, 12, 13]]),
    .ok ([12, 3, 6, 1], -1, 15, [[1, 12, 7, 9, 13, 11, 14, 4, 6, 5, 10, 2, 3, 15, 8]]),
    .ok ([8, 10, 14, 15], -1, 15, [[1, 8, 15, 3, 2, 10, 5, 6, 4, 14, 11, 13, 9, 7, 12]]),
    .ok ([3, 6, 13, 2], 1, 5, [[1, 3, 5, 14, 9], [2, 6, 11, 7, 8], [4, 13, 12, 15, 10]]),
    .ok ([10, 14, 7, 5], 1, 3, [[1, 10, 11], [2, 14, 12], [3, 4, 7], [5, 13, 8], [6, 9, 15]])] := by decide +kernel
example : [11, 12, 13, 14].map power = [
    .ok ([6, 13, 1, 4], -1, 15, [[1, 6, 12, 5, 7, 10, 9, 2, 13, 3, 11, 15, 14, 8, 4]]),
    .ok ([14, 7, 15, 11], -1, 5, [[1, 14, 3, 9, 5], [2, 7, 6, 8, 11], [4, 15, 13, 10, 12]]),
    .ok ([13, 1, 2, 9], 1, 15, [[1, 13, 6, 3, 12, 11, 5, 15, 7, 14, 10, 8, 9, 4, 2]]),
    .ok ([7, 15, 5, 12], -1, 15, [[1, 7, 13, 14, 6, 10, 3, 8, 12, 9, 11, 4, 5, 2, 15]])] := by decide +kernel
example : [0, 15].map power = List.replicate 2 (.ok ([1, 2, 4, 8], 1, 1, [])) := by decide +kernel

/- walsh_perm/test/05_gray_code/wp_5_test.py:5-21 (the inverses as products) -/
example : let gray := vec [1, 3, 6, 12]
    let square := times gray gray
    gray.bind (·.sequence) = .ok [0, 1, 3, 2, 6, 7, 5, 4, 12, 13, 15, 14, 10, 11, 9, 8] ∧ same (times gray (vec [1, 3, 7, 15])) (new {}) = .ok true ∧
    sameP gray (.seq [0, 1, 3, 2, 6, 7, 5, 4, 12, 13, 15, 14, 10, 11, 9, 8]) 16 = .ok true ∧
    gray.bind (·.mapping) = .ok [(2, 3), (3, 2), (4, 6), (5, 7), (6, 5), (7, 4), (8, 12), (9, 13), (10, 15), (11, 14), (12, 10), (13, 11), (14, 9), (15, 8)] ∧
    gray.bind (·.moved) = .ok (List.range' 2 14) ∧ same (times square square) (new {}) = .ok true ∧
    square.bind (·.mapping) = .ok [(4, 5), (5, 4), (6, 7), (7, 6), (8, 10), (9, 11), (10, 8), (11, 9), (12, 15), (13, 14), (14, 13), (15, 12)] ∧
    square.bind (·.moved) = .ok (List.range' 4 12) := by decide +kernel

/- walsh_perm/test/06_invalid/wp_6_test.py:27-56 -/
example : [mat [[0, 1, 1], [1, 0, 1], [1, 1, 0]], vec [6, 5, 3], mat [[1, 0, 1, 0], [0, 1, 1, 0], [0, 0, 0, 1], [0, 0, 0, 0]], vec [1, 2, 3, 4],
      mat [[1, 0, 1, 0], [0, 1, 0, 0], [0, 0, 1, 1], [1, 0, 0, 1]], vec [9, 2, 5, 12],
      mat [[1, 0, 1, 0], [0, 0, 1, 1], [1, 1, 1, 0], [1, 1, 0, 1]], vec [13, 12, 7, 10]].map err = List.replicate 8 (some .invalidMatrix) ∧
    [per [0, 1, 3, 5], per [0, 5, 6, 3, 8, 13, 14, 11, 0, 5, 6, 3, 8, 13, 14, 11]].map err = List.replicate 2 (some .notEvenPermutation) ∧
    [per [3, 2, 1, 0], per [0, 7, 6, 5, 4, 3, 2, 1]].map err = List.replicate 2 (some .invalidPerm) := by decide +kernel

/- walsh_perm/test/06_invalid/wp_6_test.py:58-75 -/
example : (new { perm := some (.list [3, 2, 1, 0]), trust := true }).bind (·.sequence) = .ok [0, 2, 1, 3] ∧
    (new { perm := some (.list [0, 7, 6, 5, 4, 3, 2, 1]), trust := true }).bind (·.sequence) = .ok [0, 7, 6, 1, 4, 3, 2, 5] := by decide +kernel
example : let wp := new { matrix := some (ofRows [[1, 0, 1, 0], [0, 0, 1, 1], [1, 1, 1, 0], [1, 1, 0, 1]]), trust := true }
    wp.bind (·.vector) = .ok [13, 12, 7, 10] ∧ wp.bind (·.determinant) = .ok (-2) ∧ wp.bind (·.sequence) = .error .invalidMatrix ∧
    wp.bind (·.cycles) = .error .invalidMatrix := by decide +kernel

/- walsh_perm/methods/complement_pattern/_test.py:6-42 (up to degree 6) -/
example : [[3, 1], [3, 1, 4], [3, 1, 4, 8], [7, 11, 13, 14], [7, 11, 13, 14, 16], [1], [1, 3], [1, 3, 7], [1, 3, 7, 15], [1, 3, 7, 15, 31],
      [1, 3, 6], [1, 3, 6, 12], [1, 3, 6, 12, 24], [1, 3, 6, 12, 24, 48]].map (fun l => (vec l).bind (·.complementPattern l.length)) =
    ([1, 5, 13, 15, 31, 1, 2, 4, 8, 16, 5, 10, 21, 42].map Except.ok : List (Except Err Nat)) := by decide +kernel

/- walsh_perm/metributes/complement_distance/_test.py:6-31 (up to degree 5) -/
example : [[3, 1], [7, 11, 13, 14], [1], [1, 3], [1, 3, 7], [1, 3, 7, 15], [1, 3, 7, 15, 31], [1, 3, 6], [1, 3, 6, 12], [1, 3, 6, 12, 24]].map
      (fun l => (vec l).bind (·.complementDistance)) =
    ([2, 0, 0, 1, 3, 7, 15, 2, 5, 10].map Except.ok : List (Except Err Nat)) := by decide +kernel

/- walsh_perm/methods/matrix/_test.py:24-44, walsh_perm/methods/vector/_test.py:12-36 and walsh_perm/methods/transpose_vector/_test.py:13-37 -/
example : let neut := vec []
    let w := vec [1, 3, 7]
    [0, 1, 2, 3, 4].map (fun i => (neut.bind (·.matrix (some i))).map rows) =
      [.ok [], .ok [[1]], .ok [[1, 0], [0, 1]], .ok [[1, 0, 0], [0, 1, 0], [0, 0, 1]], .ok [[1, 0, 0, 0], [0, 1, 0, 0], [0, 0, 1, 0], [0, 0, 0, 1]]] ∧
    [none, some 3, some 4].map (fun i => (w.bind (·.matrix i)).map rows) =
      [.ok [[1, 1, 1], [0, 1, 1], [0, 0, 1]], .ok [[1, 1, 1], [0, 1, 1], [0, 0, 1]], .ok [[1, 1, 1, 0], [0, 1, 1, 0], [0, 0, 1, 0], [0, 0, 0, 1]]] ∧
    [0, 1, 2].map (fun i => (w.bind (·.matrix (some i))).map rows) = List.replicate 3 (.error .requestedDegree) ∧
    [0, 1, 2].map (fun i => ((vec [7, 6, 4]).bind (·.matrix (some i))).map rows) = List.replicate 3 (.error .requestedDegree) := by decide +kernel
example : let neut := vec []
    let w := vec [1, 3, 7]
    [none, some 0, some 1, some 2, some 3, some 4].map (fun i => neut.bind (·.vector i)) =
      [.ok [], .ok [], .ok [1], .ok [1, 2], .ok [1, 2, 4], .ok [1, 2, 4, 8]] ∧
    [none, some 0, some 1, some 2, some 3, some 4].map (fun i => neut.bind (·.transposeVector i)) =
      [.ok [], .ok [], .ok [1], .ok [1, 2], .ok [1, 2, 4], .ok [1, 2, 4, 8]] ∧
    [none, some 3, some 4].map (fun i => w.bind (·.vector i)) = [.ok [1, 3, 7], .ok [1, 3, 7], .ok [1, 3, 7, 8]] ∧
    [none, some 3, some 4].map (fun i => w.bind (·.transposeVector i)) = [.ok [7, 6, 4], .ok [7, 6, 4], .ok [7, 6, 4, 8]] ∧
    [0, 1, 2].map (fun i => w.bind (·.vector (some i))) = List.replicate 3 (.error .requestedDegree) ∧
    [0, 1, 2].map (fun i => w.bind (·.transposeVector (some i))) = List.replicate 3 (.error .requestedDegree) := by decide +kernel

/- walsh_perm/metributes/inverse/_test.py:4-9 (as a product) and walsh_perm/metributes/transpose/_test.py:4-9 -/
example : same (times (vec [1, 3, 7]) (vec [1, 3, 6])) (new {}) = .ok true ∧ same ((vec [1, 3, 7]).bind (·.transpose)) (vec [7, 6, 4]) = .ok true := by
  decide +kernel

/- walsh_perm/a/matrix_to_vector/_test.py:6-22 -/
example : matrixToVector (ofRows [[0, 1, 1, 1], [1, 1, 0, 1], [0, 0, 0, 1], [0, 0, 1, 1]]) = .ok [2, 3, 9, 15] ∧
    matrixToVector (ofRows [[1, 0, 1, 0], [0, 1, 1, 0], [0, 0, 0, 1], [0, 0, 0, 0]]) = .ok [1, 2, 3, 4] := by decide +kernel

/- walsh_perm/a/perm_to_matrix/_test.py:14-53 -/
private def ptm (l : List Nat) : Except Err (Option (List (List Int))) := (permToMatrix (.list l)).map (·.map rows)
example : ptm [0, 2, 3, 1, 9, 11, 10, 8, 15, 13, 12, 14, 6, 4, 5, 7] = .ok (some [[0, 1, 1, 1], [1, 1, 0, 1], [0, 0, 0, 1], [0, 0, 1, 1]]) ∧
    (do (← permToMatrix (.perm (← mkPerm (.seq [0, 2, 3, 1, 9, 11, 10, 8, 15, 13, 12, 14, 6, 4, 5, 7]) (some 16)))).map rows |> pure) =
      (.ok (some [[0, 1, 1, 1], [1, 1, 0, 1], [0, 0, 0, 1], [0, 0, 1, 1]]) : Except Err _) ∧
    ptm [0, 2, 3, 1] = .ok (some [[0, 1], [1, 1]]) ∧ ptm [0, 1, 2] = .error .permLength ∧ ptm [0, 1, 2, 3, 4] = .error .permLength ∧
    ptm [0] = .ok none ∧ ptm [0, 1] = .ok none ∧ ptm [0, 5, 6, 3, 8, 13, 14, 11, 0, 5, 6, 3, 8, 13, 14, 11] = .error .notEvenPermutation := by decide +kernel

/- walsh_perm/a/vector_class/_test.py:7-36 and 49-51 (without dictionaries) -/
example : [[], [1], [1, 2], [1, 2, 4], [1, 2, 4, 8]].map (fun l => (List.range 5).map (Vec.ofList l).get) = List.replicate 5 [1, 2, 4, 8, 16] ∧
    (List.range 5).map (Vec.ofList [8, 12, 2, 3]).get = [8, 12, 2, 3, 16] ∧ Vec.length (Vec.ofList [8, 12, 2, 3, 16, 32]) = 4 ∧
    (Vec.ofList [8, 12, 2, 3, 16, 32]).extendToLength 4 = .ok [8, 12, 2, 3] ∧
    (Vec.ofList [8, 12, 2, 3, 16, 32]).extendToLength 5 = .ok [8, 12, 2, 3, 16] ∧ Vec.length (Vec.ofList [7, 6, 4]) = 2 ∧
    (Vec.ofList [8, 12, 2, 3]).extendToLength 3 = .error .extendedLengthTooSmall := by decide +kernel

end Verif.W
