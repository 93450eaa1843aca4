import Verif.SigPerm.Schoute
import Verif.Perm.Slice

/-!
# The tests of perm/, replayed on the model

The expected values are those of the test files, which are named before each example.  These are no proofs of properties; they check that the model is one of this
code.
-/

set_option synthInstance.maxSize 2048
set_option synthInstance.maxHeartbeats 400000

namespace Verif.P
open Verif.Py

/-- `Perm(l)` for a list of numbers -/
private def seq (l : List Nat) (perilen : Option Nat := none) : Except Err Perm := mkPerm (.seq l) perilen
/-- `Perm(l)` for a list of lists -/
private def cyc (l : List (List Nat)) (perilen : Option Nat := none) : Except Err Perm := mkPerm (.cycles l) perilen
/-- `a == b` -/
private def same (a b : Except Err Perm) : Except Err Bool := do return (← a).eq (← b)
/-- `a * b` -/
private def times (a b : Except Err Perm) : Except Err Perm := do (← a).mul (← b)

/- perm/test/01_misc/perm_1_test.py:4-16 -/
example : same (seq [3, 0, 1, 2, 6, 5, 4]) (seq [3, 0, 1, 2, 6, 5, 4, 7, 8]) = .ok true ∧
    same (seq [3, 0, 1, 2, 6, 5, 4, 7, 8]) (cyc [[0, 3, 2, 1], [4, 6]]) = .ok true ∧
    same (cyc [[0, 3, 2, 1], [4, 6]]) (cyc [[0, 3, 2, 1], [4, 6], [5], [999]]) = .ok true ∧
    same (cyc [[0, 3, 2, 1], [4, 6], [5], [999]]) (cyc [[6, 4], [2, 1, 0, 3]]) = .ok true ∧
    same (cyc [[6, 4], [2, 1, 0, 3]]) (cyc [[6, 4], [1, 2, 0, 3]]) = .ok false := by decide +kernel

/- perm/test/01_misc/perm_1_test.py:19-27 -/
example : (cyc [[1], [3]]) = .ok neutralPerm ∧ neutralPerm.neutral = true ∧ neutralPerm.sequence = .ok [] ∧ neutralPerm.cycles = .ok [] ∧
    neutralPerm.mapping = [] ∧ neutralPerm.moved = [] ∧ neutralPerm.order = .ok 1 := by decide +kernel

/- perm/test/01_misc/perm_1_test.py:30-57 -/
example : (seq [1, 2, 3, 0, 6, 5, 4]).map (fun p => (p.sequence, p.mapping, p.moved, p.cycles, p.order)) =
      .ok (.ok [1, 2, 3, 0, 6, 5, 4], [(0, 1), (1, 2), (2, 3), (3, 0), (4, 6), (6, 4)], [0, 1, 2, 3, 4, 6], .ok [[0, 1, 2, 3], [4, 6]], .ok 4) ∧
    same ((seq [1, 2, 3, 0, 6, 5, 4]).bind Perm.inverse) (seq [3, 0, 1, 2, 6, 5, 4]) = .ok true ∧
    (seq [3, 2, 1, 0]).map (fun p => (p.sequence, p.mapping, p.moved, p.cycles, p.order)) =
      .ok (.ok [3, 2, 1, 0], [(0, 3), (1, 2), (2, 1), (3, 0)], [0, 1, 2, 3], .ok [[0, 3], [1, 2]], .ok 2) ∧
    same ((seq [3, 2, 1, 0]).bind Perm.inverse) (seq [3, 2, 1, 0]) = .ok true ∧
    (cyc [[0, 5, 4], [1, 7, 2, 8], [3, 6]]).map (fun p => (p.cycles, p.sequence, p.mapping, sorted p.moved, p.order)) =
      .ok (.ok [[0, 5, 4], [1, 7, 2, 8], [3, 6]], .ok [5, 7, 8, 6, 0, 4, 3, 2, 1],
        [(0, 5), (5, 4), (4, 0), (1, 7), (7, 2), (2, 8), (8, 1), (3, 6), (6, 3)], [0, 1, 2, 3, 4, 5, 6, 7, 8], .ok 12) ∧
    same ((cyc [[0, 5, 4], [1, 7, 2, 8], [3, 6]]).bind Perm.inverse) (seq [4, 8, 7, 6, 5, 0, 3, 1, 2]) = .ok true := by decide +kernel

/- perm/test/02_concat/a_four_elements/perm_2a_test.py:35-48 -/
example : same (times (seq [2, 1, 0, 3]) (seq [2, 1, 0, 3])) (seq [0, 1, 2, 3]) = .ok true ∧
    same (times (seq [0, 1, 2, 3]) (seq [2, 0, 1, 3])) (seq [2, 0, 1, 3]) = .ok true ∧
    same (times (seq [2, 0, 1, 3]) (seq [3, 0, 1, 2])) (seq [3, 2, 0, 1]) = .ok true ∧
    same (times (seq [3, 0, 1, 2]) (seq [2, 0, 1, 3])) (seq [1, 3, 0, 2]) = .ok true ∧
    same (times (times (seq [2, 0, 1, 3]) (seq [3, 0, 1, 2])) (seq [2, 1, 0, 3])) (seq [0, 2, 3, 1]) = .ok true ∧
    same (times (times (seq [2, 1, 0, 3]) (seq [3, 0, 1, 2])) (seq [2, 0, 1, 3])) (seq [1, 3, 2, 0]) = .ok true := by decide +kernel

/- perm/test/02_concat/a_four_elements/perm_2a_test.py:22-32 and 51-53 -/
example : ∀ x ∈ [(-2, [3, 2, 1, 0]), (-1, [2, 0, 3, 1]), (0, [0, 1, 2, 3]), (1, [1, 3, 0, 2]), (2, [3, 2, 1, 0]), (3, [2, 0, 3, 1]), (4, [0, 1, 2, 3]),
    (5, [1, 3, 0, 2]), (6, [3, 2, 1, 0])], same ((seq [1, 3, 0, 2]).bind fun p => p.pow x.1) (seq x.2) = .ok true := by decide +kernel

/- perm/test/02_concat/a_four_elements/perm_2a_test.py:69-76 -/
example : (seq [1, 3, 0, 2]).bind (·.sequence) = .ok [1, 3, 0, 2] ∧ (seq [1, 3, 0, 2]).bind (·.sequence (some 4)) = .ok [1, 3, 0, 2] ∧
    (seq [1, 3, 0, 2]).bind (·.sequence (some 5)) = .ok [1, 3, 0, 2, 4] ∧ (seq [1, 3, 0, 2]).bind (·.sequence (some 3)) = .error .lengthTooSmall := by
  decide +kernel

/- perm/test/02_concat/b_wiki_examples/perm_2b_test.py:5-32 -/
example : same ((seq [1, 3, 0, 2, 4]).bind Perm.inverse) (seq [2, 0, 3, 1, 4]) = .ok true ∧
    same (times (seq [1, 3, 0, 2, 4]) (seq [4, 3, 2, 1, 0])) (seq [4, 2, 0, 3, 1]) = .ok true ∧
    same (times (seq [4, 3, 2, 1, 0]) (seq [1, 3, 0, 2, 4])) (seq [3, 1, 4, 2, 0]) = .ok true ∧
    (seq [1, 3, 0, 2, 4]).bind (·.applyOnVector ['0', '1', '2', '3', '4']) = .ok ['2', '0', '3', '1', '4'] ∧
    (seq [4, 3, 2, 1, 0]).bind (·.applyOnVector ['2', '0', '3', '1', '4']) = .ok ['4', '1', '3', '0', '2'] ∧
    (seq [3, 1, 4, 2, 0]).bind (·.applyOnVector ['0', '1', '2', '3', '4']) = .ok ['4', '1', '3', '0', '2'] ∧
    (seq [1, 3, 0, 2, 4]).bind (·.applyOnVector [false, false, false, true, true]) = .ok [false, false, true, false, true] := by decide +kernel

/- perm/test/02_concat/b_wiki_examples/perm_2b_test.py:34-43 -/
example : same (times (seq [0, 2, 3, 4, 1, 6, 5]) (seq [0, 1, 3, 4, 5, 2, 6])) (seq [0, 2, 4, 1, 6, 3, 5]) = .ok true ∧
    same (times (seq [0, 1, 3, 4, 5, 2, 6]) (seq [0, 2, 3, 4, 1, 6, 5])) (seq [0, 3, 4, 5, 1, 6, 2]) = .ok true ∧
    same (times (cyc [[0, 5], [1, 4], [2, 3]]) (cyc [[0, 2], [1, 5, 3]])) (cyc [[0, 3, 4, 1], [2, 5]]) = .ok true := by decide +kernel

/- perm/test/02_concat/c_finite_and_periodic/perm_2c_test.py:8-61 -/
example : (times (seq [1, 0, 2] (some 3)) (seq [0, 1, 4, 3, 2] (some 5))).map (fun p => (p.perilen, p.sequence, p.cycles, p.cyclesDynamic, p.sequence (some 30),
      p.sequence (some 14), p.cyclesDynamic (some 16))) =
      .ok (some 15, .ok [1, 0, 3, 4, 2, 5, 7, 10, 8, 6, 9, 11, 14, 12, 13], .ok [[0, 1], [2, 3, 4], [6, 7, 10, 9], [12, 14, 13]],
        .ok [[0, 1], [2, 3, 4], [6, 7, 10, 9], [12, 14, 13]], .ok ([1, 0, 3, 4, 2, 5, 7, 10, 8, 6, 9, 11, 14, 12, 13] ++
          [1, 0, 3, 4, 2, 5, 7, 10, 8, 6, 9, 11, 14, 12, 13].map (· + 15)), .error .lengthMismatchPerilen, .error .lengthMismatchPerilen) ∧
    (times (seq [0, 1, 4, 3, 2] (some 5)) (seq [1, 0, 2] (some 3))).map (fun p => (p.perilen, p.sequence, p.cycles, p.cyclesDynamic (some 30))) =
      .ok (some 15, .ok [1, 0, 4, 2, 3, 5, 9, 6, 8, 10, 7, 11, 13, 14, 12], .ok [[0, 1], [2, 4, 3], [6, 9, 10, 7], [12, 13, 14]],
        .ok [[0, 1], [2, 4, 3], [6, 9, 10, 7], [12, 13, 14], [15, 16], [17, 19, 18], [21, 24, 25, 22], [27, 28, 29]]) ∧
    (times (seq [1, 0, 2, 4, 3, 5, 7, 6, 8, 10, 9, 11, 13, 12, 14]) (seq [0, 1, 4, 3, 2, 5, 6, 9, 8, 7, 10, 11, 14, 13, 12])).map (fun p =>
      (p.perilen, p.sequence, p.cycles, p.sequence (some 20), p.sequence (some 14), p.cyclesDynamic (some 30))) =
      .ok (none, .ok [1, 0, 3, 4, 2, 5, 7, 10, 8, 6, 9, 11, 14, 12, 13], .ok [[0, 1], [2, 3, 4], [6, 7, 10, 9], [12, 14, 13]],
        .ok ([1, 0, 3, 4, 2, 5, 7, 10, 8, 6, 9, 11, 14, 12, 13] ++ [15, 16, 17, 18, 19]), .error .lengthTooSmall, .error .notPeriodic) := by decide +kernel

/- perm/test/02_concat/c_finite_and_periodic/perm_2c_test.py:45-46 -/
example : same ((times (seq [1, 0, 2] (some 3)) (seq [0, 1, 4, 3, 2] (some 5))).bind Perm.inverse) (times (seq [0, 1, 4, 3, 2] (some 5)) (seq [1, 0, 2] (some 3))) =
    .ok true := by decide +kernel

/- perm/test/03_periodic/perm_3_test.py:4-18 -/
example : (cyc [[0, 3]]).map (fun p => (p.sequence, p.sequence (some 10))) = .ok (.ok [3, 1, 2, 0], .ok [3, 1, 2, 0, 4, 5, 6, 7, 8, 9]) ∧
    (cyc [[0, 3]] (some 10)).map (fun p => (p.sequence (some 10), p.sequence (some 20))) =
      .ok (.ok [3, 1, 2, 0, 4, 5, 6, 7, 8, 9], .ok [3, 1, 2, 0, 4, 5, 6, 7, 8, 9, 13, 11, 12, 10, 14, 15, 16, 17, 18, 19]) ∧
    same (seq [1, 0, 3, 2, 5, 4, 7, 6] (some 8)) (seq [1, 0, 3, 2, 5, 4] (some 6)) = .ok true ∧
    same (seq [1, 0, 3, 2] (some 4)) (seq [1, 0] (some 2)) = .ok true ∧ same (seq [1, 0, 3, 2, 5, 4] (some 6)) (seq [1, 0] (some 2)) = .ok true ∧
    same (seq [1, 2, 3, 0, 5, 6, 7, 4] (some 8)) (seq [1, 2, 3, 0] (some 4)) = .ok true := by decide +kernel

/- perm/a/broaden_moved/_test.py:6-13 -/
example : sorted (broadenSub [0, 1] 5 3) = [0, 1, 5, 6, 10, 11] ∧
    sorted (broadenSub [1, 2, 3] 1000 5) = [1, 2, 3, 1001, 1002, 1003, 2001, 2002, 2003, 3001, 3002, 3003, 4001, 4002, 4003] ∧
    (broadenMoved 3 5 [0, 1] [0, 1]).map id sorted = (15, [0, 1, 3, 4, 5, 6, 7, 9, 10, 11, 12, 13]) ∧
    (broadenMoved 6 15 [0, 1] [12, 13, 14]).map id sorted = (30, [0, 1, 6, 7, 12, 13, 14, 18, 19, 24, 25, 27, 28, 29]) := by decide +kernel

/- perm/a/reduce_period/_test.py:4-18 -/
example : blockRepeats [(0, 1), (1, 5), (5, 0)] 6 2 = .ok false ∧ blockRepeats [(0, 1), (1, 5), (5, 0)] 6 3 = .ok false ∧
    blockRepeats [(0, 1), (1, 4), (4, 5), (5, 0)] 6 2 = .ok false ∧ blockRepeats [(0, 1), (1, 4), (4, 5), (5, 0)] 6 3 = .ok false ∧
    blockRepeats [(0, 1), (1, 2), (2, 0), (3, 5), (5, 4), (4, 3)] 6 3 = .ok false ∧ blockRepeats [(0, 1), (1, 0), (3, 4), (4, 3)] 6 2 = .ok true ∧
    blockRepeats [(0, 1), (1, 0), (2, 3), (3, 2), (4, 5), (5, 4)] 6 3 = .ok true ∧ blockRepeats [(0, 1), (1, 0), (2, 3), (3, 2), (5, 4), (4, 5)] 6 3 = .ok true ∧
    blockRepeats [(1, 2), (2, 3), (3, 1), (51, 52), (52, 53), (53, 51)] 100 2 = .ok true ∧
    blockRepeats [(1, 2), (2, 3), (3, 1), (51, 53), (53, 52), (52, 51)] 100 2 = .ok false := by decide +kernel

/- perm/a/reduce_period/_test.py:21-25 (the dictionaries of the last call are no permutations) -/
example : reducePeriod [(0, 1), (1, 0), (2, 3), (3, 2)] 4 = .ok ([(0, 1), (1, 0)], 2) ∧
    reducePeriod [(0, 1), (1, 2), (2, 3), (3, 0)] 4 = .ok ([(0, 1), (1, 2), (2, 3), (3, 0)], 4) ∧
    reducePeriod [(1, 2), (2, 1), (4, 5), (5, 7), (7, 5), (51, 52), (52, 51), (54, 55), (55, 57), (57, 55)] 100 =
      .ok ([(1, 2), (2, 1), (4, 5), (5, 7), (7, 5)], 50) := by decide +kernel

/- perm/a/inversion_related_vectors/_test.py:8-28 -/
example : leftInversionCount [0, 6, 4, 2, 1, 7, 5, 3] = [0, 0, 1, 2, 3, 0, 2, 4] ∧ rightInversionCount [0, 6, 4, 2, 1, 7, 5, 3] = [0, 5, 3, 1, 0, 2, 1, 0] ∧
    inversionVector [0, 6, 4, 2, 1, 7, 5, 3] = .ok [0, 3, 2, 4, 1, 2, 0, 0] ∧
    leftInversionCountToPermutation [0, 0, 1, 2, 3, 0, 2, 4] = .ok [0, 6, 4, 2, 1, 7, 5, 3] ∧
    rightInversionCountToPermutation [0, 5, 3, 1, 0, 2, 1, 0] = .ok [0, 6, 4, 2, 1, 7, 5, 3] ∧
    inversionSetToCount [(1, 2), (1, 3), (1, 4), (1, 6), (1, 7), (2, 3), (2, 4), (2, 7), (3, 4), (5, 6), (5, 7), (6, 7)] = [0, 0, 1, 2, 3, 0, 2, 4] ∧
    inversionSetToCount [(1, 2), (1, 3), (1, 4), (1, 6), (1, 7), (2, 3), (2, 4), (2, 7), (3, 4), (5, 6), (5, 7), (6, 7)] false = [0, 5, 3, 1, 0, 2, 1, 0] ∧
    inversionSetToPermutation [(1, 2), (1, 3), (1, 4), (1, 6), (1, 7), (2, 3), (2, 4), (2, 7), (3, 4), (5, 6), (5, 7), (6, 7)] =
      .ok [0, 6, 4, 2, 1, 7, 5, 3] := by decide +kernel

/- perm/a/inversion_related_vectors/_test.py:31-60 -/
example : leftInversionCount [5, 0, 1, 2, 3, 4, 6, 7] = [0, 1, 1, 1, 1, 1, 0, 0] ∧ rightInversionCount [5, 0, 1, 2, 3, 4, 6, 7] = [5, 0, 0, 0, 0, 0, 0, 0] ∧
    inversionVector [5, 0, 1, 2, 3, 4, 6, 7] = .ok [1, 1, 1, 1, 1, 0, 0, 0] ∧ inversionVector [5, 0, 1, 2, 3, 4] = .ok [1, 1, 1, 1, 1, 0] ∧
    leftInversionCountToPermutation [0, 1, 1, 1, 1, 1, 0, 0] = .ok [5, 0, 1, 2, 3, 4, 6, 7] ∧
    rightInversionCountToPermutation [5, 0, 0, 0, 0, 0, 0, 0] = .ok [5, 0, 1, 2, 3, 4, 6, 7] ∧
    inversionSetToCount [(0, 1), (0, 2), (0, 3), (0, 4), (0, 5)] = [0, 1, 1, 1, 1, 1] ∧
    inversionSetToCount [(0, 1), (0, 2), (0, 3), (0, 4), (0, 5)] false = [5, 0, 0, 0, 0, 0] ∧
    inversionSetToPermutation [(0, 1), (0, 2), (0, 3), (0, 4), (0, 5)] = .ok [5, 0, 1, 2, 3, 4] := by decide +kernel

/- perm/metributes/schoute_perm/_test.py:5-12 -/
example : same ((seq [3, 0, 1, 2]).bind SG.permSchoutePerm) (cyc [[1, 8, 4, 2], [3, 9, 12, 6], [5, 10], [7, 11, 13, 14]] (some 16)) = .ok true ∧
    same ((SG.new { pair := some (0, 9) }).bind SG.SigPerm.schoutePerm) (cyc [[1, 8, 4, 2], [3, 9, 12, 6], [5, 10], [7, 11, 13, 14]] (some 16)) = .ok true ∧
    ((SG.new { pair := some (0, 9) }).bind SG.SigPerm.schoutePerm).bind (·.sequence) = .ok [0, 8, 1, 9, 2, 10, 3, 11, 4, 12, 5, 13, 6, 14, 7, 15] := by decide +kernel

/- perm/metributes/schoute_perm/_test.py:15-29 -/
example : same ((SG.new { pair := some (1, 3) }).bind SG.SigPerm.schoutePerm) (cyc [[0, 1, 5, 7, 6, 2], [3, 4]] (some 8)) = .ok true ∧
    ((SG.new { pair := some (1, 3) }).bind SG.SigPerm.schoutePerm).bind (·.sequence (some 16)) = .ok [1, 5, 0, 4, 3, 7, 2, 6, 9, 13, 8, 12, 11, 15, 10, 14] ∧
    (do return (← SG.new { pair := some (3, 18) }).eq (← SG.new { sequence := some [A.inv 1, 2, 3, A.inv 0] })) = Except.ok (ε := Err) true ∧
    (((SG.new { pair := some (3, 18) }).bind SG.SigPerm.schoutePerm).bind Perm.inverse).bind (·.sequence) =
      .ok [9, 1, 8, 0, 11, 3, 10, 2, 13, 5, 12, 4, 15, 7, 14, 6] := by decide +kernel

/- perm/test/01_misc/perm_1_test.py:60-72 -/
example : let sl (a b c : Option Int) (p : Except Err Perm) := p.bind (·.getSlice ⟨a, b, c⟩)
    let digits : List (Option Nat) := [some 4, some 3, some 2, some 1, some 0]
    let more : List (Option Nat) := digits ++ [some 9, some 8, some 7, some 6, some 5]
    [seq [4, 3, 2, 1, 0], seq [4, 3, 2, 1, 0] (some 5)].map (fun p =>
      [sl none none none p, sl none (some 5) none p, sl (some 0) (some 5) none p, sl (some 0) (some 5) (some 1) p]) =
        List.replicate 2 (List.replicate 4 (.ok digits)) ∧
    [sl none (some 10) none, sl (some 0) (some 10) none, sl (some 0) (some 10) (some 1)].map (· (seq [4, 3, 2, 1, 0] (some 5))) =
      List.replicate 3 (.ok more) ∧
    [sl none (some 10) none (.ok neutralPerm), sl (some 0) (some 10) none (.ok neutralPerm), sl (some 0) (some 10) (some 1) (.ok neutralPerm)] =
      List.replicate 3 (.ok ((List.range 10).map some)) := by decide +kernel

end Verif.P
