import Verif.SetPart.Model2
import Verif.SetPartComp.Model

/-!
# The tests of set_part/ and set_part_comp/, replayed on the model

The expected values are those of the test files, which are named before each example.  These are no proofs of properties; they check that the model is one of this
code.  Letters and words are replaced by numbers (the elements of a finite domain, and the labels).
-/

set_option synthInstance.maxSize 2048
set_option synthInstance.maxHeartbeats 400000

namespace Verif.SP
open Verif.Py

/-- `SetPart(blocks, domain)`, with numbers as labels -/
private def part (blocks : List (List Int)) (domain : Domain := .N) : Except Err (SetPart Nat) := newPart blocks domain
/-- `a == b` -/
private def same (a b : Except Err (SetPart Nat)) : Except Err Bool := do (← a).eq (← b)
/-- `a.merge_pair(x, y)` -/
private def merge (x y : Int) (a : Except Err (SetPart Nat)) : Except Err (SetPart Nat) := do
  let r := (← a).mergePair x y
  r.1.map fun _ => r.2
/-- `a.merge_many(l)` -/
private def mergeL (l : List Int) (a : Except Err (SetPart Nat)) : Except Err (SetPart Nat) := do
  let r := (← a).mergeMany l
  r.1.map fun _ => r.2
/-- `a.add_label_to_block(block, label)` -/
private def label (block : List Int) (x : Nat) (a : Except Err (SetPart Nat)) : Except Err (SetPart Nat) := do
  let r := (← a).addLabelToBlock block x
  r.1.map fun _ => r.2
/-- `a.add_label_to_element(element, label)` -/
private def labelE (element : Int) (x : Nat) (a : Except Err (SetPart Nat)) : Except Err (SetPart Nat) := do
  let r := (← a).addLabelToElement element x
  r.1.map fun _ => r.2
/-- `a.refine_block(new_blocks, new_labels)` -/
private def refine (new : List (List Int)) (labels : Option (List Nat)) (a : Except Err (SetPart Nat)) : Except Err (SetPart Nat) := do
  let r := (← a).refineBlock new labels
  r.1.map fun _ => r.2
/-- equality of sets -/
private def setEq {α : Type} [DecidableEq α] (s t : List α) : Bool := s.all (t.contains ·) && t.all (s.contains ·)

private def A : Except Err (SetPart Nat) := part [[2, 8], [1, 6, 3]]

/- set_part/_test.py:9-28 -/
example : same A (part [[2, 8], [], [1, 6, 3], [88], [99]]) = .ok true ∧ A.map (·.blocks) = .ok [[1, 3, 6], [2, 8]] ∧
    A.map (·.nonSingletonToBlockIndex) = .ok [(1, 0), (3, 0), (6, 0), (2, 1), (8, 1)] ∧
    A.map (fun a => setEq a.nonSingletons [1, 2, 3, 6, 8]) = .ok true ∧ same A (part [[3, 1, 6], [8, 2]]) = .ok true ∧
    A.bind (·.blocksWithSingletons {}) = .ok [[0], [1, 3, 6], [2, 8], [4], [5], [7]] ∧
    A.bind (·.blocksWithSingletons { length := some 10 }) = .ok [[0], [1, 3, 6], [2, 8], [4], [5], [7], [9]] := by decide +kernel
example : A.map (fun a => [a.pairInSameBlock 2 8, a.pairInSameBlock 3 1, a.pairInSameBlock 1 99, a.pairInSameBlock 88 99]) =
      .ok [true, true, false, false] ∧
    A.map (fun a => [a.indexOrNone 6, a.indexOrNone 8, a.indexOrNone 99]) = .ok [some 0, some 1, none] ∧
    A.map (fun a => [a.elementToBlock 3, a.elementToBlock 8]) = .ok [[1, 3, 6], [2, 8]] := by decide +kernel

/- set_part/_test.py:30-48 -/
example : same (merge 1 2 A) (part [[1, 3, 6, 2, 8]]) = .ok true ∧ same (merge 1 9 A) (part [[1, 3, 6, 9], [2, 8]]) = .ok true ∧
    same (merge 8 7 (merge 1 9 A)) (part [[1, 3, 6, 9], [2, 7, 8]]) = .ok true ∧
    same (merge 88 99 (merge 8 7 (merge 1 9 A))) (part [[1, 3, 6, 9], [2, 7, 8], [88, 99]]) = .ok true ∧
    same (merge 0 1 (part [])) (part [[0, 1]]) = .ok true ∧ same (merge 0 2 (merge 0 1 (part []))) (part [[0, 1, 2]]) = .ok true ∧
    same (merge 1 2 (merge 0 2 (merge 0 1 (part [])))) (part [[0, 1, 2]]) = .ok true := by decide +kernel

/- set_part/_test.py:51-57 -/
example : let pairs : List (Int × Int) := [(0, 1), (6, 9), (6, 7), (4, 5), (1, 4), (1, 5), (0, 5), (2, 3), (0, 4), (7, 9)]
    (part [[0, 1, 4, 5], [2, 3], [6, 7, 9]]).map (fun a => setEq a.pairs.1 pairs) = .ok true ∧
    same (pairs.foldl (fun b xy => merge xy.1 xy.2 b) (part [])) (part [[0, 1, 4, 5], [2, 3], [6, 7, 9]]) = .ok true := by decide +kernel

/- set_part/_test.py:60-85 (without `.5`) -/
example : let p := merge 8 9 (part [[2, 5], [3, 8]])
    same p (part [[2, 5], [3, 8, 9]]) = .ok true ∧ merge (-1) 2 p = .error .notInDomain ∧ mergeL [-1, 1, 2] p = .error .notInDomain ∧
    p.bind (·.singletons.1) = .error .domainNotFinite := by decide +kernel
example : let p := merge 8 9 (part [[2, 5], [3, 8]] .Z)
    same p (part [[2, 5], [3, 8, 9]] .Z) = .ok true ∧ same (merge (-1) 2 p) (part [[-1, 2, 5], [3, 8, 9]] .Z) = .ok true := by decide +kernel

/- set_part/_test.py:88-97, with the letters a, b, c, d, w, x, y, z as 0 … 7 -/
example : let D : Domain := .finite [0, 1, 2, 3, 4, 5, 6, 7]
    let p := part [[0, 2], [5, 6]] D
    let q := merge 0 1 p
    let r := mergeL [4, 5, 7] q
    p.bind (·.blocksWithSingletons {}) = .ok [[0, 2], [1], [3], [4], [5, 6], [7]] ∧
    (p.bind (·.singletons.1)).map (setEq [1, 3, 4, 7]) = .ok true ∧
    same q (part [[0, 1, 2], [5, 6]] D) = .ok true ∧ same r (part [[0, 1, 2], [4, 5, 6, 7]] D) = .ok true ∧
    r.bind (·.blocksWithSingletons {}) = .ok [[0, 1, 2], [3], [4, 5, 6, 7]] := by decide +kernel

/- set_part/_test.py:100-106 -/
private def less (a b : List (List Int)) : Except Err Bool := do (← part a).lt (← part b)
example : less [[2, 4]] [[1, 3], [2, 4]] = .ok true ∧ less [[2, 4]] [[2, 3, 4]] = .ok true ∧ less [] [[2, 4]] = .ok true ∧
    less [[2, 4], [5, 7]] [[2, 3, 4], [5, 6, 7]] = .ok true ∧ less [[1, 2]] [] = .ok false ∧ less [[2, 3, 4]] [[2, 4]] = .ok false := by
  decide +kernel

/- set_part/methods/block_labels/_test.py:8-37, with the labels small, big and medium as 0, 1 and 2 -/
private def Lb : Except Err (SetPart Nat) := label [7, 9] 1 (label [3, 5] 0 (part [[3, 5], [7, 9]]))
example : (part [[3, 5], [7, 9]]).bind (·.canonicalBlocksWithSingletons.1) = .ok [[0], [1], [2], [3, 5], [4], [6], [7, 9], [8]] ∧
    label [2, 5] 7 (part [[3, 5], [7, 9]]) = .error .unknownBlock ∧ label [10] 8 (part [[3, 5], [7, 9]]) = .error .unknownBlock ∧
    label [7, 9] 2 Lb = .error .labelContradiction ∧ merge 3 9 Lb = .error .labelContradiction ∧
    (label [6] 2 Lb).map (fun p => setEq p.blockLabels [([3, 5], 0), ([6], 2), ([7, 9], 1)]) = .ok true ∧
    (label [6] 2 Lb).map (fun p => (p.getLabelFromBlock [3, 5], p.getBlockFromLabel 1, p.getLabelFromElement 3, p.getLabelFromElement 5,
      p.getBlockFromElement 3, p.getBlockFromElement 5)) = .ok (some 0, some [7, 9], some 0, some 0, some [3, 5], some [3, 5]) := by decide +kernel

/- set_part/methods/block_labels/_test.py:40-50 -/
example : let p := labelE 5 0 (part [[3, 5], [7, 9]])
    p.map (·.blockLabels) = .ok [([3, 5], 0)] ∧ (merge 3 9 p).map (·.blockLabels) = .ok [([3, 5, 7, 9], 0)] ∧
    (labelE 8 1 (merge 3 9 p)).map (fun q => setEq q.blockLabels [([3, 5, 7, 9], 0), ([8], 1)]) = .ok true := by decide +kernel

/- set_part/methods/blocks_with_singletons/_test.py:12-41 (without the wrong types) -/
example : let finest := part []
    let setpart := part [[1, 3], [5, 9]]
    finest.bind (·.blocksWithSingletons {}) = .ok [] ∧ finest.bind (·.blocksWithSingletons { length := some 4 }) = .ok [[0], [1], [2], [3]] ∧
    finest.bind (·.blocksWithSingletons { elements := some [0, 1, 2, 3] }) = .ok [[0], [1], [2], [3]] ∧
    setpart.bind (·.blocksWithSingletons {}) = .ok [[0], [1, 3], [2], [4], [5, 9], [6], [7], [8]] ∧
    setpart.bind (·.blocksWithSingletons { length := some 12 }) = .ok [[0], [1, 3], [2], [4], [5, 9], [6], [7], [8], [10], [11]] ∧
    setpart.bind (·.blocksWithSingletons { elements := some [1, 3, 5, 9] }) = .ok [[1, 3], [5, 9]] ∧
    setpart.bind (·.blocksWithSingletons { elements := some [1, 3, 5, 7, 9] }) = .ok [[1, 3], [5, 9], [7]] ∧
    setpart.bind (·.blocksWithSingletons { elements := some [1, 2, 3, 5, 7, 9] }) = .ok [[1, 3], [2], [5, 9], [7]] := by decide +kernel
example : let setpart := part [[1, 3], [5, 9]]
    setpart.bind (·.blocksWithSingletons { length := some 10, elements := some [123] }) = .error .tooManyArguments ∧
    setpart.bind (·.blocksWithSingletons { length := some 0, elements := some [123, 456] }) = .error .tooManyArguments ∧
    setpart.bind (·.blocksWithSingletons { length := some 9 }) = .error .lengthMismatch ∧
    setpart.bind (·.blocksWithSingletons { elements := some [3, 5, 9] }) = .error .elementsMismatch ∧
    setpart.bind (·.blocksWithSingletons { elements := some [1, 3, 9] }) = .error .elementsMismatch ∧
    setpart.bind (·.blocksWithSingletons { elements := some [1, 3, 5] }) = .error .elementsMismatch := by decide +kernel

/- set_part/methods/meet_and_join/_test.py:6-55 -/
private def lattice (a b meet join : List (List Int)) : Bool :=
  let is (f : SetPart Nat → SetPart Nat → Except Err (SetPart Nat)) (c : List (List Int)) : Bool :=
    decide (same (do f (← part a) (← part b)) (part c) = .ok true)
  is SetPart.meet meet && is SetPart.meetPrototype meet && is SetPart.join join && is SetPart.joinPrototype join && is SetPart.joinPrototypeImproved join
example : lattice [[0, 1, 2, 4], [5, 6, 9], [7, 8]] [[0, 1], [2, 3, 4], [6, 8, 9]] [[0, 1], [2, 4], [6, 9]] [[0, 1, 2, 3, 4], [5, 6, 7, 8, 9]] := by
  decide +kernel
example : lattice [[1, 4, 6], [2, 3, 5], [8, 9, 10, 11]] [[2, 3], [4, 5], [7, 8]] [[2, 3]] [[1, 2, 3, 4, 5, 6], [7, 8, 9, 10, 11]] := by decide +kernel
example : lattice [[4, 7, 9], [2, 1, 0], [6, 5, 10]] [[1, 2, 3], [4, 5], [10, 11, 12]] [[1, 2]] [[0, 1, 2, 3], [4, 5, 6, 7, 9, 10, 11, 12]] := by
  decide +kernel
example : lattice [] [[1, 3]] [] [[1, 3]] := by decide +kernel
example : lattice [[1, 2], [5, 6, 7], [10, 20]] [[1, 2], [4, 6, 9], [10, 11]] [[1, 2]] [[1, 2], [4, 5, 6, 7, 9], [10, 11, 20]] := by decide +kernel
example : lattice [[1, 2], [5, 6, 7], [10, 20, 30]] [[1, 2], [4, 6, 9], [10, 11, 30]] [[1, 2], [10, 30]] [[1, 2], [4, 5, 6, 7, 9], [10, 11, 20, 30]] := by
  decide +kernel

/- set_part/methods/merge_many/_test.py:4-11 and set_part/methods/merge_pair/_test.py:4-9 -/
example : same (mergeL [1, 2, 3] (part [])) (part [[1, 2, 3]]) = .ok true ∧
    same (mergeL [3, 4, 5] (mergeL [1, 2, 3] (part []))) (part [[1, 2, 3, 4, 5]]) = .ok true ∧
    same (mergeL [6, 7, 8] (mergeL [3, 4, 5] (mergeL [1, 2, 3] (part [])))) (part [[1, 2, 3, 4, 5], [6, 7, 8]]) = .ok true ∧
    same (merge 40 50 (merge 20 30 (merge 10 20 (part [])))) (part [[10, 20, 30], [40, 50]]) = .ok true := by decide +kernel

/- set_part/methods/refine_block/_test.py:4-25, with the labels as 0 … 3 -/
example : same (refine [[1, 2], [3, 4]] none (part [[1, 2, 3, 4], [6, 7]])) (part [[1, 2], [3, 4], [6, 7]]) = .ok true := by decide +kernel
example : let p := labelE 6 1 (labelE 1 0 (part [[1, 2, 3, 4], [6, 7]]))
    p.map (fun q => setEq q.blockLabels [([1, 2, 3, 4], 0), ([6, 7], 1)]) = .ok true ∧
    same (refine [[1, 2, 4], [3]] (some [2, 3]) p) (part [[1, 2, 4], [6, 7]]) = .ok true ∧
    (refine [[1, 2, 4], [3]] (some [2, 3]) p).map (fun q => setEq q.blockLabels [([6, 7], 1), ([1, 2, 4], 2), ([3], 3)]) = .ok true := by decide +kernel

/- set_part/metributes/intval/_test.py:4-7 -/
example : [[[1, 2], [0, 3]], [[1, 2, 3]], [[0, 3], [1, 2, 4]]].map (fun l => (part l).map (·.intval.1)) = [.ok 12, .ok 52, .ok 396] := by decide +kernel

/- set_part/metributes/pairs/_test.py:4-23 -/
example : let a := part [[1, 3, 5], [7, 9]]
    let b := part [[1, 3], [5, 7, 9]]
    let c : Except Err (SetPart Nat) := do (← a).join (← b)
    let d : Except Err (SetPart Nat) := do (← a).meet (← b)
    a.map (fun p => setEq p.pairs.1 [(7, 9), (1, 3), (3, 5), (1, 5)]) = .ok true ∧
    b.map (fun p => setEq p.pairs.1 [(7, 9), (5, 9), (1, 3), (5, 7)]) = .ok true ∧
    same c (part [[1, 3, 5, 7, 9]]) = .ok true ∧
    c.map (fun p => setEq p.pairs.1 [(1, 5), (3, 7), (5, 7), (7, 9), (1, 7), (3, 9), (5, 9), (1, 3), (1, 9), (3, 5)]) = .ok true ∧
    c.bind (·.blocksWithSingletons {}) = .ok [[0], [1, 3, 5, 7, 9], [2], [4], [6], [8]] ∧
    c.bind (·.blocksWithSingletons { elements := some [1, 3, 5, 7, 9, 99] }) = .ok [[1, 3, 5, 7, 9], [99]] ∧
    same d (part [[1, 3], [7, 9]]) = .ok true ∧ d.map (fun p => setEq p.pairs.1 [(7, 9), (1, 3)]) = .ok true ∧
    d.bind (·.blocksWithSingletons {}) = .ok [[0], [1, 3], [2], [4], [5], [6], [7, 9], [8]] ∧
    d.bind (·.blocksWithSingletons { length := some 12 }) = .ok [[0], [1, 3], [2], [4], [5], [6], [7, 9], [8], [10], [11]] ∧
    d.bind (·.blocksWithSingletons { elements := some [1, 3, 5, 7, 9] }) = .ok [[1, 3], [5], [7, 9]] ∧
    d.bind (·.blocksWithSingletons { elements := some [1, 3, 5, 7, 9, 99] }) = .ok [[1, 3], [5], [7, 9], [99]] := by decide +kernel

end Verif.SP

namespace Verif.SPC
open Verif.Py Verif.SP

/-- `s.set_equal(a, b)` -/
private def eqv (a b : Int) (s : Except Err SetPartComp) : Except Err SetPartComp := do
  let r := (← s).setEqual a b
  r.1.map fun _ => r.2
/-- `s.set_comp(a, b)` -/
private def cmp (a b : Int) (s : Except Err SetPartComp) : Except Err SetPartComp := do
  let r := (← s).setComp a b
  r.1.map fun _ => r.2
/-- `SetPartComp(part, comp)` -/
private def spc (part : List (List Int)) (comp : List (Int × Int)) : Except Err SetPartComp := new (some part) (some comp)
/-- `s == t` -/
private def same (s t : Except Err SetPartComp) : Except Err Bool := do (← s).eq (← t)
/-- blocks and pairs -/
private def view (s : Except Err SetPartComp) : Except Err (List (List Int) × List (Int × Int)) := s.map fun s => (s.equalPart.blocks, s.compPairs)
/-- the blocks of `s.related_part()` -/
private def rel (s : Except Err SetPartComp) : Except Err (List (List Int)) := (s.bind (·.relatedPart)).map (·.blocks)

/- set_part_comp/_test.py:9-51 -/
private def S1 : Except Err SetPartComp := cmp 8 3 (eqv 7 8 (eqv 5 6 (eqv 3 4 (eqv 2 3 (new none none)))))
private def S2 : Except Err SetPartComp := eqv 5 1 S1
private def S3 : Except Err SetPartComp := eqv 0 8 S2
example : view S1 = .ok ([[2, 3, 4], [5, 6], [7, 8]], [(2, 7)]) ∧ eqv 2 7 S1 = .error .setEqualComplements ∧ eqv 8 4 S1 = .error .setEqualComplements ∧
    cmp 2 4 S1 = .error .setCompEquals ∧ cmp 5 6 S1 = .error .setCompEquals ∧ cmp 8 7 S1 = .error .setCompEquals ∧
    view S2 = .ok ([[1, 5, 6], [2, 3, 4], [7, 8]], [(2, 7)]) ∧ view S3 = .ok ([[0, 7, 8], [1, 5, 6], [2, 3, 4]], [(0, 2)]) := by decide +kernel
example : S3.map (fun s => [s.areComp 0 4, s.areComp 3 7, s.areComp 5 3, s.areComp 7 8, s.areComp 0 99, s.areComp 88 99]) =
      .ok [true, true, false, false, false, false] ∧
    S3.map (fun s => [s.areEqual 1 6, s.areEqual 5 7, s.areEqual 5 99, s.areEqual 88 99]) = .ok [true, false, false, false] ∧
    view (cmp 8 9 S3) = .ok ([[0, 7, 8], [1, 5, 6], [2, 3, 4, 9]], [(0, 2)]) := by decide +kernel

/- set_part_comp/_test.py:54-81 -/
example : let s := spc [[0, 1], [2, 3], [4, 5], [6, 7]] [(0, 2), (4, 6)]
    view s = .ok ([[0, 1], [2, 3], [4, 5], [6, 7]], [(0, 2), (4, 6)]) ∧ eqv 1 3 s = .error .setEqualComplements ∧ cmp 0 1 s = .error .setCompEquals ∧
    view (cmp 3 4 s) = .ok ([[0, 1, 4, 5], [2, 3, 6, 7]], [(0, 2)]) ∧
    new none (some [(1, 2)]) = .error .compWithoutPart ∧ new none (some []) = .error .compWithoutPart ∧
    spc [[1, 2]] [(1, 2)] = .error .partCompMismatch ∧ spc [[1, 2, 3], [4, 5]] [(1, 3)] = .error .partCompMismatch := by decide +kernel

/- set_part_comp/_test.py:84-127 -/
example : let part : List (List Int) := [[0, 1], [2, 3], [4, 5], [6, 7]]
    view (eqv 0 3 (new (some part) none)) = .ok ([[0, 1, 2, 3], [4, 5], [6, 7]], []) ∧ view (cmp 0 3 (new (some part) none)) = .ok (part, [(0, 2)]) ∧
    view (eqv 1 3 (spc part [(2, 4)])) = .ok ([[0, 1, 2, 3], [4, 5], [6, 7]], [(0, 4)]) ∧
    view (cmp 0 3 (spc part [(2, 4)])) = .ok ([[0, 1, 4, 5], [2, 3], [6, 7]], [(0, 2)]) ∧
    rel (cmp 0 3 (spc part [(2, 4)])) = .ok [[0, 1, 2, 3, 4, 5], [6, 7]] ∧
    view (eqv 1 3 (spc part [(0, 6), (2, 4)])) = .ok ([[0, 1, 2, 3], [4, 5, 6, 7]], [(0, 4)]) ∧
    view (cmp 1 3 (spc part [(0, 6), (2, 4)])) = .ok ([[0, 1, 4, 5], [2, 3, 6, 7]], [(0, 2)]) ∧
    rel (cmp 1 3 (spc part [(0, 6), (2, 4)])) = .ok [[0, 1, 2, 3, 4, 5, 6, 7]] := by decide +kernel

/- set_part_comp/_test.py:130-183 -/
private def I0 : Except Err SetPartComp := spc [[3, 4], [5, 6, 7], [8, 9], [20, 30]] [(1, 2), (3, 8), (10, 11)]
private def I1 : Except Err SetPartComp := eqv 2 4 I0
private def I2 : Except Err SetPartComp := cmp 11 20 I1
private def I3 : Except Err SetPartComp := cmp 12 30 I2
private def I4 : Except Err SetPartComp := eqv 6 13 I3
private def I5 : Except Err SetPartComp := cmp 3 30 I4
private def I6 : Except Err SetPartComp := cmp 40 50 I5
private def I7 : Except Err SetPartComp := eqv 60 70 I6
private def I8 : Except Err SetPartComp := cmp 0 70 I7
private def I9 : Except Err SetPartComp := cmp 0 40 I8
private def I10 : Except Err SetPartComp := eqv 0 1 I9
private def I11 : Except Err SetPartComp := eqv 2 5 I10
example : rel I0 = .ok [[1, 2], [3, 4, 8, 9], [5, 6, 7], [10, 11], [20, 30]] ∧ I0.map (fun s => (s.getBlock 4, s.getRepr 4)) = .ok ([3, 4], 3) ∧
    same I1 (spc [[1, 8, 9], [2, 3, 4], [5, 6, 7], [20, 30]] [(1, 2), (10, 11)]) = .ok true ∧
    rel I1 = .ok [[1, 2, 3, 4, 8, 9], [5, 6, 7], [10, 11], [20, 30]] ∧ I1.bind (·.numberOfRelatedBlocks) = .ok 4 ∧ I1.bind (·.length) = .ok 31 ∧
    same I2 (spc [[1, 8, 9], [2, 3, 4], [5, 6, 7], [10, 20, 30]] [(1, 2), (10, 11)]) = .ok true ∧
    I2.map (fun s => (s.getBlock 20, s.getRepr 20)) = .ok ([10, 20, 30], 10) ∧
    same I3 (spc [[1, 8, 9], [2, 3, 4], [5, 6, 7], [10, 20, 30], [11, 12]] [(1, 2), (10, 11)]) = .ok true ∧
    same I4 (spc [[1, 8, 9], [2, 3, 4], [5, 6, 7, 13], [10, 20, 30], [11, 12]] [(1, 2), (10, 11)]) = .ok true := by decide +kernel
example : same I5 (spc [[1, 8, 9, 10, 20, 30], [2, 3, 4, 11, 12], [5, 6, 7, 13]] [(1, 2)]) = .ok true ∧
    rel I5 = .ok [[1, 2, 3, 4, 8, 9, 10, 11, 12, 20, 30], [5, 6, 7, 13]] ∧
    same I6 (spc [[1, 8, 9, 10, 20, 30], [2, 3, 4, 11, 12], [5, 6, 7, 13]] [(1, 2), (40, 50)]) = .ok true ∧
    rel I6 = .ok [[1, 2, 3, 4, 8, 9, 10, 11, 12, 20, 30], [5, 6, 7, 13], [40, 50]] ∧ I6.bind (·.numberOfRelatedBlocks) = .ok 3 ∧
    I6.bind (·.length) = .ok 51 ∧ I6.bind (·.affectedElements) = .ok [1, 2, 3, 4, 5, 6, 7, 8, 9, 10, 11, 12, 13, 20, 30, 40, 50] ∧
    I6.bind (·.numberOfAffectedElements) = .ok 17 ∧
    same I7 (spc [[1, 8, 9, 10, 20, 30], [2, 3, 4, 11, 12], [5, 6, 7, 13], [60, 70]] [(1, 2), (40, 50)]) = .ok true ∧
    I7.map (fun s => (s.getBlock 4, s.getRepr 4)) = .ok ([2, 3, 4, 11, 12], 2) := by decide +kernel
example : same I8 (spc [[1, 8, 9, 10, 20, 30], [2, 3, 4, 11, 12], [5, 6, 7, 13], [60, 70]] [(1, 2), (40, 50), (0, 60)]) = .ok true ∧
    rel I8 = .ok [[0, 60, 70], [1, 2, 3, 4, 8, 9, 10, 11, 12, 20, 30], [5, 6, 7, 13], [40, 50]] ∧ I8.bind (·.numberOfRelatedBlocks) = .ok 4 ∧
    I8.bind (·.length) = .ok 71 ∧
    same I9 (spc [[0, 50], [1, 8, 9, 10, 20, 30], [2, 3, 4, 11, 12], [5, 6, 7, 13], [40, 60, 70]] [(1, 2), (0, 40)]) = .ok true ∧
    same I10 (spc [[0, 1, 8, 9, 10, 20, 30, 50], [2, 3, 4, 11, 12, 40, 60, 70], [5, 6, 7, 13]] [(0, 2)]) = .ok true ∧
    same I11 (spc [[0, 1, 8, 9, 10, 20, 30, 50], [2, 3, 4, 5, 6, 7, 11, 12, 13, 40, 60, 70]] [(0, 2)]) = .ok true := by decide +kernel

/- set_part_comp/_test.py:186-193 -/
example : [(1, 5), (1, 7), (3, 5), (3, 7), (7, 3)].map (fun p => view (spc [[1, 3], [5, 7]] [p])) =
    List.replicate 5 (.ok ([[1, 3], [5, 7]], [(1, 5)])) := by decide +kernel

/- set_part_comp/methods/all_complement_pairs/_test.py:4-9 -/
example : (spc [[0, 1], [2, 3]] [(0, 3)]).map (fun s => s.allComplementPairs.all ([(0, 2), (0, 3), (1, 2), (1, 3)].contains ·) && s.allComplementPairs.length == 4) =
      .ok true ∧
    (spc [[0, 2], [1, 3]] [(0, 3)]).map (fun s => s.allComplementPairs.all ([(0, 1), (0, 3), (1, 2), (2, 3)].contains ·) && s.allComplementPairs.length == 4) =
      .ok true := by decide +kernel

/- set_part_comp/methods/int_matches/_test.py:4-17 -/
example : [0, 3, 4, 7, 8, 11, 12, 15].map (fun n => ((new (some [[0, 1]]) none).bind (·.intMatches n), (spc [] [(0, 1)]).bind (·.intMatches n))) =
      List.replicate 8 (.ok true, .ok false) ∧
    [1, 2, 5, 6, 9, 10, 13, 14].map (fun n => ((new (some [[0, 1]]) none).bind (·.intMatches n), (spc [] [(0, 1)]).bind (·.intMatches n))) =
      List.replicate 8 (.ok false, .ok true) := by decide +kernel

end Verif.SPC
