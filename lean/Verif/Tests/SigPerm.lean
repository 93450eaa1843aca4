import Verif.SigPerm.FromSchoute

/-!
# The tests of sig_perm/, replayed on the model

The expected values are those of the test files, which are named before each example.  These are no proofs of properties; they check that the model is one of this
code.
-/

set_option synthInstance.maxSize 2048
set_option synthInstance.maxHeartbeats 400000

namespace Verif.SG
open Verif.Py Verif.P Verif.BV

/-- the matrix with these rows -/
private def ofRows (l : List (List Int)) : Mat := ⟨l.length, (l.headD []).length, fun i j => (l.getD i []).getD j 0⟩
/-- the rows of a matrix -/
private def rows (m : Mat) : List (List Int) := (List.range m.rows).map fun i => (List.range m.cols).map (m.get i)
/-- `SigPerm(sequence=l)` -/
private def seq (l : List Int) : Except Err SigPerm := new { sequence := some l }
/-- `SigPerm(valneg=v, perm=p)` -/
private def val (v : NegArg) (p : List Nat) : Except Err SigPerm := new { valneg := some v, perm := some (.arg (.seq p)) }
/-- `SigPerm(keyneg=v, perm=p)` -/
private def key (v : NegArg) (p : List Nat) : Except Err SigPerm := new { keyneg := some v, perm := some (.arg (.seq p)) }
/-- `SigPerm(pair=(v, p))` -/
private def ofPair (v p : Int) : Except Err SigPerm := new { pair := some (v, p) }
/-- `a == b` -/
private def same (a b : Except Err SigPerm) : Except Err Bool := do return (← a).eq (← b)
/-- `a * b` -/
private def times (a b : Except Err SigPerm) : Except Err SigPerm := do (← a).mul (← b)
/-- `Binv(intval=n)` -/
private def bint (n : Nat) : NegArg := .binv ((mk { intval := some (n : Int) }).toOption.getD ⟨[]⟩)
/-- `Binv(string)` -/
private def bstr (s : String) : Except Err Binv := mk { vector := some (.str s.toList) }

/- sig_perm/_test.py:11-53 -/
private def A3 : Except Err SigPerm := val (.list [0, 1, 1]) [2, 0, 1]
private def matrix3 : List (List Int) := [[0, 1, 0], [0, 0, -1], [-1, 0, 0]]
example : [val (bint 6) [2, 0, 1, 3, 4], val (.set [1, 2]) [2, 0, 1, 3, 4, 5], ofPair 6 3, key (.list [1, 0, 1]) [2, 0, 1, 3, 4],
      new { keynegIndex := some 5, permIndex := some 3 }, seq [-3, 0, -2], seq [-3, 0, -2, 3, 4], new { matrix := some (ofRows matrix3) }].map (same A3) =
    List.replicate 8 (.ok true) := by decide +kernel
example : (do return (← A3).binv.eq (← bstr "011")) = Except.ok (ε := Err) true ∧
    (do return (← A3).perm.eq (← mkPerm (.seq [2, 0, 1]))) = Except.ok (ε := Err) true ∧
    A3.bind (·.pair) = .ok (6, 3) ∧ A3.bind (·.sequence) = .ok [-3, 0, -2] ∧ A3.bind (·.sequence (some 3)) = .ok [-3, 0, -2] ∧
    A3.bind (·.sequenceString) = .ok "[~2, 0, ~1]".toList ∧ A3.bind (·.sequenceString (some 3)) = .ok "[~2, 0, ~1]".toList ∧
    (A3.bind (·.matrix)).map rows = .ok matrix3 ∧ A3.bind (·.sequence (some 5)) = .ok [-3, 0, -2, 3, 4] ∧
    A3.bind (·.sequenceString (some 5)) = .ok "[~2, 0, ~1, 3, 4]".toList ∧
    (A3.bind (·.matrix (some 5))).map rows = .ok [[0, 1, 0, 0, 0], [0, 0, -1, 0, 0], [-1, 0, 0, 0, 0], [0, 0, 0, 1, 0], [0, 0, 0, 0, 1]] ∧
    same (A3.bind (·.inverse)) (seq [1, -3, -1]) = .ok true ∧
    (A3.bind (·.matrix (some 4))).map (fun m => rows (m.dot (ofRows [[900], [911], [922], [933]]))) = .ok [[911], [-922], [-900], [933]] ∧
    A3.bind (·.applyOnVector [900, 911, 922, 933]) = .ok [911, -923, -901, 933] := by decide +kernel

/- sig_perm/_test.py:56-112 -/
private def A4 : Except Err SigPerm := val (.list [1, 1, 0, 0]) [3, 1, 0, 2]
private def matrix4 : List (List Int) := [[0, 0, -1, 0], [0, -1, 0, 0], [0, 0, 0, 1], [1, 0, 0, 0]]
example : [val (bint 3) [3, 1, 0, 2, 4, 5], val (.set [0, 1]) [3, 1, 0, 2, 4, 5, 6], ofPair 3 11, key (.list [0, 1, 1, 0]) [3, 1, 0, 2, 4, 5],
      key (.set [1, 2]) [3, 1, 0, 2, 4, 5], new { keynegIndex := some 6, permIndex := some 11 }, A4, seq [3, -2, -1, 2], seq [3, -2, -1, 2, 4, 5],
      new { matrix := some (ofRows matrix4) }].map (same A4) = List.replicate 10 (.ok true) := by decide +kernel
example : (do return (← A4).binv.eq (← bstr "1100")) = Except.ok (ε := Err) true ∧
    (do return (← A4).perm.eq (← mkPerm (.seq [3, 1, 0, 2]))) = Except.ok (ε := Err) true ∧
    A4.bind (·.pair) = .ok (3, 11) ∧ A4.bind (·.sequence) = .ok [3, -2, -1, 2] ∧ A4.bind (·.sequence (some 4)) = .ok [3, -2, -1, 2] ∧
    A4.bind (·.sequenceString) = .ok "[3, ~1, ~0, 2]".toList ∧ A4.bind (·.sequenceString (some 4)) = .ok "[3, ~1, ~0, 2]".toList ∧
    (A4.bind (·.matrix)).map rows = .ok matrix4 ∧ A4.bind (·.sequence (some 6)) = .ok [3, -2, -1, 2, 4, 5] ∧
    A4.bind (·.sequenceString (some 6)) = .ok "[3, ~1, ~0, 2, 4, 5]".toList ∧ A4.bind (·.sequenceString (some 6) true) = .ok "(3, ~1, ~0, 2, 4, 5)".toList ∧
    (A4.bind (·.matrix (some 6))).map rows =
      .ok [[0, 0, -1, 0, 0, 0], [0, -1, 0, 0, 0, 0], [0, 0, 0, 1, 0, 0], [1, 0, 0, 0, 0, 0], [0, 0, 0, 0, 1, 0], [0, 0, 0, 0, 0, 1]] ∧
    same (A4.bind (·.inverse)) (seq [-3, -2, 3, 0]) = .ok true ∧
    (A4.bind (·.matrix (some 5))).map (fun m => rows (m.dot (ofRows [[900], [911], [922], [933], [944]]))) =
      .ok [[-922], [-911], [933], [900], [944]] ∧
    A4.bind (·.applyOnVector [900, 911, 922, 933, 944]) = .ok [-923, -912, 933, 900, 944] := by decide +kernel

/- sig_perm/_test.py:115-121 -/
example : (do return (← val (.list []) [5, 3, 1, 2, 4, 0]).eqPerm (← mkPerm (.seq [5, 3, 1, 2, 4, 0]))) = Except.ok (ε := Err) true ∧
    (do return (← val (.set [3]) [5, 3, 1, 2, 4, 0]).eqPerm (← mkPerm (.seq [5, 3, 1, 2, 4, 0]))) = Except.ok (ε := Err) false := by decide +kernel

/- sig_perm/_test.py:124-132 -/
private def sch (s : Except Err SigPerm) (l : List Nat) : Except Err Bool := do return (← (← s).schoutePerm).eq (← mkPerm (.seq l) (some 8))
example : same (times (seq [0, -2, -3]) (seq [2, 0, 1])) (seq [-3, 0, -2]) = .ok true ∧
    sch (seq [0, -2, -3]) [6, 7, 4, 5, 2, 3, 0, 1] = .ok true ∧ sch (seq [2, 0, 1]) [0, 4, 1, 5, 2, 6, 3, 7] = .ok true ∧
    sch (seq [-3, 0, -2]) [6, 2, 7, 3, 4, 0, 5, 1] = .ok true := by decide +kernel

/- sig_perm/_test.py:135-151 -/
example : let a := val (.set [1, 3]) [3, 2, 0, 1]
    let b := val (.set [3, 9]) [2, 0, 1, 3]
    same a (seq [-4, 2, 0, -2]) = .ok true ∧ a.map (·.length) = .ok 4 ∧ same b (seq [2, 0, 1, -4, 4, 5, 6, 7, 8, -10]) = .ok true ∧ b.map (·.length) = .ok 10 ∧
    same (times a b) (seq [0, -4, 2, 1, 4, 5, 6, 7, 8, -10]) = .ok true ∧ same (times b a) (seq [3, 1, 2, -1, 4, 5, 6, 7, 8, -10]) = .ok true := by
  decide +kernel

/- sig_perm/_test.py:154-157 -/
example : [(0, 0), (0, 3), (5, 0), (6, 13)].map (fun p : Nat × Nat => (ofPair p.1 p.2).bind (·.pair)) =
    [.ok (0, 0), .ok (0, 3), .ok (5, 0), .ok (6, 13)] := by decide +kernel

/- sig_perm/_test.py:160-194 -/
example : let sp := ofPair 12 7
    sp.bind (·.applyOnVector [1, 0, 0, 1]) = .ok [0, 1, -2, -1] ∧ sp.bind (·.applyOnVector [0, 1, 0, 1]) = .ok [1, 0, -2, -1] ∧
    [9, 10, 0, 12, 8, 4, 7, 25, 26].map (fun n => sp.bind (·.applyOnNaturalNumber n)) =
      [.ok 10, .ok 9, .ok 12, .ok 0, .ok 8, .ok 4, .ok 7, .ok 26, .ok 25] ∧
    sp.bind (·.applyOnVector [1, 0, 0, 1, 1]) = .ok [0, 1, -2, -1, 1] := by decide +kernel
example : (do (← (← ofPair 0 23).schoutePerm).applyOnVector (← bstr "0111 0001 1110 1000").vector) =
    (bstr "0101 1100 1100 1010").map (·.vector) := by decide +kernel

/- sig_perm/_test.py:197-231 -/
example : let a := new { keynegIndex := some 0, perm := some (.arg (.seq [3, 1, 2, 0])) }
    let b := new { keynegIndex := some 1, perm := some (.arg (.seq [3, 1, 2, 0])) }
    let c := key (.list [1, 0, 1]) [3, 1, 2, 0, 4]
    a.bind (·.sequenceString) = .ok "[3, 1, 2, 0]".toList ∧ a.bind (·.permIndex) = .ok 21 ∧
    b.bind (·.sequenceString) = .ok "[~3, 1, 2, 0]".toList ∧ b.bind (·.keynegIndex) = .ok 1 ∧ b.map (·.valnegIndex) = .ok 8 ∧
    b.bind (·.permIndex) = .ok 21 ∧ b.bind (·.pair) = .ok (8, 21) ∧
    c.bind (·.sequenceString) = .ok "[~3, 1, ~2, 0]".toList ∧ c.bind (·.keynegIndex) = .ok 5 ∧ c.map (·.valnegIndex) = .ok 12 := by decide +kernel
example : same (seq []) (seq [0, 1]) = .ok true ∧ (seq []).map (fun d => (d.binv.vector, d.perm.eq neutralPerm, d.length)) = .ok ([], true, 0) ∧
    same (seq [-1]) (seq [-1, 1]) = .ok true ∧ (seq [-1]).map (fun d => (d.binv.vector, d.perm.eq neutralPerm, d.length)) = .ok ([true], true, 1) ∧
    new {} = .error .argCombo := by decide +kernel

/- sig_perm/a/matrix_to_sequence/_test.py:4-14 and sig_perm/a/sequence_to_matrix/_test.py:5-27 (`inverse` is the transposition) -/
example : matrixToSequence (ofRows [[0, 0, 1], [-1, 0, 0], [0, 1, 0]]) = .ok [-2, 2, 0] ∧
    matrixToSequence (ofRows [[0, 0, 1], [-1, 0, 0], [0, 1, 0]]).transpose = .ok [2, -1, 1] ∧
    (sequenceToMatrix [-2, 2, 0]).map rows = .ok [[0, 0, 1], [-1, 0, 0], [0, 1, 0]] ∧
    (sequenceToMatrix [2, -1, 1]).map (fun m => rows m.transpose) = .ok [[0, 0, 1], [-1, 0, 0], [0, 1, 0]] := by decide +kernel

/- sig_perm/a/schoute_to_finite_inverse/_test.py:8-13 -/
example : schouteListToFiniteInverse [0, 2, 4, 6, 1, 3, 5, 7] = .ok [2, 0, 1] ∧
    schouteListToFiniteInverse [0, 2, 4, 6, 1, 3, 5, 7, 8, 10, 12, 14, 9, 11, 13, 15] = .ok [2, 0, 1] ∧
    schouteListToFiniteInverse [0, 2, 4, 6, 8, 10, 12, 14, 1, 3, 5, 7, 9, 11, 13, 15] = .ok [3, 0, 1, 2] := by decide +kernel

/- sig_perm/a/schoute_to_finite_inverse/_test.py:16-23 -/
private noncomputable def back (v p : Int) : Except Err (Bool × Bool × Bool × Bool) := do
  let s ← ofPair v p
  let i ← (← s.inverse).sequence
  let schoute ← s.schoutePerm
  let l ← schoute.sequence
  return (decide (schouteToFiniteInverse schoute = .ok i), decide (schouteListToFiniteInverse l = .ok i), (← newSchoute schoute).eq s,
    (← newSchouteList l).eq s)
example : [(0, 0), (0, 3), (5, 0), (6, 13)].map (fun p : Nat × Nat => back p.1 p.2) = List.replicate 4 (.ok (true, true, true, true)) := by decide +kernel

end Verif.SG
