import Verif.Boolf.Model13
import Verif.Boolf.Model21
import Verif.Boolf.Model22

/-!
# The tests of boolf/, replayed on the model

The expected values are those of the test files, which are named before each example.  These are no proofs of properties; they check that the model is one of this
code.  Functions with atoms in another order are left out, because the inverse of a `WalshPerm` is not computable in the model.
-/

set_option synthInstance.maxSize 2048
set_option synthInstance.maxHeartbeats 400000

namespace Verif.BF
open Verif.Py Verif.BV Verif.SP Verif.SPC

/-- `Boolf(s)` and `Boolf(s, atoms)` -/
private noncomputable def b (s : String) (atoms : Option (List Int) := none) : Except Err Boolf := new { tt := some (.str s.toList), av := atoms }
/-- `f == g` -/
private def same (f g : Except Err Boolf) : Except Err Bool := do return (← f).eq (← g)
/-- `f & g` -/
private noncomputable def and (f g : Except Err Boolf) : Except Err Boolf := do (← f).and (← g)
/-- `Binv(s).vector` -/
private def bits (s : String) : Except Err (List Bool) := (mk { vector := some (.str s.toList) }).map (·.vector)
/-- all are equal to the first -/
private def allSame (f : Except Err Boolf) (l : List (Except Err Boolf)) : Bool := l.all fun g => decide (same f g = .ok true)
/-- the error -/
private def err {α : Type} (a : Except Err α) : Option Err := match a with
  | .error e => some e
  | .ok _ => none

/- boolf/test/01_misc/boolf_1_test.py:12-21 -/
example : [b "1", b "0"].map (fun f => f.map fun f => (f.isConstant, f.valency, f.atomvals, f.root.vector)) =
      [.ok (true, 0, [], [true]), .ok (true, 0, [], [false])] ∧
    same (b "1") (new { tt := some (.bool true) }) = .ok true ∧ same (b "0") (new { tt := some (.bool false) }) = .ok true := by decide +kernel

/- boolf/test/01_misc/boolf_1_test.py:24-30 -/
private noncomputable def at' (n : Int) : Except Err Boolf := new { atom := some n }
example : [0, 1, 2].all (fun i : Nat => allSame (at' i) [b "01" (some [(i : Int)])] && allSame (at' (-i - 1)) [b "10" (some [(i : Int)])]) = true := by decide +kernel
example : same (and (at' 2) (at' (-4))) (b "0100" (some [2, 3])) = .ok true ∧
    same (and (and (b "1110") (at' (-3))) (at' (-4))) (b "1110 0000 0000 0000") = .ok true := by decide +kernel

/- boolf/test/01_misc/boolf_1_test.py:33-43 -/
private noncomputable def multis (l : List Entry) : List (Except Err Boolf) := [new { muA := some l }, new { muO := some l }, new { muXo := some l }, new { muXa := some l }]
example : let l : List Entry := [.int 0, .int 1]
    let m : List Entry := [.boolf (setUnary 0), .boolf (setUnary 1)]
    ((["0001", "0111", "0110", "1001"].zip ((multis l).zip (multis m))).all fun x => allSame (b x.1) [b x.1 (some [0, 1]), x.2.1, x.2.2]) = true ∧
    (multis [.int 1, .int 2]).map (fun f => (f.bind (·.tt (.arity 3))).map (·.vector)) =
      ["0000 0011", "0011 1111", "0011 1100", "1100 0011"].map bits := by decide +kernel

/- boolf/test/01_misc/boolf_1_test.py:54-76 -/
private noncomputable def li (l : List Int) (atoms : Option (List Int) := none) : Except Err Boolf := new { tt := some (.list l), av := atoms }
example : allSame (li [1, 1, 1, 1]) [li [1, 1, 1, 1] (some [77, 99]), li [1] (some []), li [1]] ∧
    allSame (li [0, 0, 0, 0, 0, 0, 0, 0] (some [1, 3, 5])) [li [0] (some []), li [0]] ∧ allSame (b "1010") [b "10"] ∧ allSame (b "1100") [b "10" (some [1])] ∧
    allSame (b "0101 1010") [b "0110" (some [0, 2])] ∧ allSame (b "0011 0011" (some [1000, 3000, 5000])) [b "01" (some [3000])] ∧
    allSame (b "0000 0000 0000 1111") [b "0000 0011" (some [1, 2, 3]), b "0001" (some [2, 3])] ∧
    allSame (b "0001 1000 0001 1000" (some [2, 5, 8, 99])) [b "0001 1000" (some [2, 5, 8])] := by decide +kernel
example : (new { fs := some [0, 1, 2, 3, 4, 6], av := some [10, 20, 40] }).map (fun f => (f.fullspots, f.atomvals, f.spreadVector)) =
    .ok ([0, 1, 2], [10, 40], .ok [10, 39]) := by decide +kernel

/- boolf/test/01_misc/boolf_1_test.py:79-94 -/
example : ["0100 1001 0101 1101", "0110 1001 0110 1001", "0011 0011 0011 0011", "0000 0000 0000 0000"].map (fun s =>
      (b s).bind fun f => (List.range 16).mapM (f.getItem ·)) =
    ["0100 1001 0101 1101", "0110 1001 0110 1001", "0011 0011 0011 0011", "0000 0000 0000 0000"].map bits := by decide +kernel

/- boolf/test/01_misc/boolf_1_test.py:97-120 -/
example : ["0", "10", "0001", "0111", "0110 1001", "1"].map (fun s => (b s).map fun f => (f.valueFract, f.weightFract)) =
    [.ok (.ok 0, .ok 0), .ok (.ok (2 / 3), .ok (1 / 2)), .ok (.ok (1 / 15), .ok (1 / 4)), .ok (.ok (7 / 15), .ok (3 / 4)), .ok (.ok (7 / 17), .ok (1 / 2)),
      .ok (.ok 1, .ok 1)] := by decide +kernel

/- boolf/test/01_misc/boolf_1_test.py:123-134 -/
example : [b "1" (some [123]), b "01" (some []), b "01" (some [123, 456]), b "0110" (some [123]), b "0110" (some [123, 456, 789])].map err =
      List.replicate 5 (some .sarityVectorMismatch) ∧
    [b "01" (some [3, 3]), b "0110" (some [3, 3, 5])].map err = List.replicate 2 (some .atomvalsNotUnique) := by decide +kernel

/- boolf/test/01_misc/boolf_1_test.py:160-166, boolf/subinit_methods/ws/_test.py:4-11 and boolf/subinit_methods/zhe/_test.py:4-13 -/
private noncomputable def wsp (l : List Int) : Except Err Boolf := new { ws := some l }
private noncomputable def zh (n : Int) : Except Err Boolf := new { zhe := some n }
example : allSame (wsp [0]) [b "0"] ∧ allSame (wsp [1]) [b "1"] ∧ allSame (wsp [2, 0, 2, 0]) [at' (-2), b "1100"] ∧ allSame (wsp [3, 1, 1, -1]) [b "1110"] ∧
    allSame (wsp [4, 2, 0, -2, 0, 2, 0, 2]) [wsp [8, 4, 0, -4, 0, 4, 0, 4, 0, 0, 0, 0, 0, 0, 0, 0], b "1010 0110"] ∧
    allSame (wsp [5, -3, 1, 1, -1, -1, -1, -1]) [b "0101 1101"] := by decide +kernel
example : allSame (zh 0) [b "0"] ∧ allSame (zh 1) [b "1"] ∧ allSame (zh 2) [b "01"] ∧ allSame (zh 3) [b "10"] ∧ allSame (zh 4) [b "01" (some [1])] ∧
    allSame (zh 5) [b "10" (some [1])] ∧ allSame (zh 123) [b "1011 0010"] := by decide +kernel

/- boolf/subinit_methods/atom/_test.py:4-7 and boolf/subinit_methods/fs/_test.py:8-41 -/
private noncomputable def fs (l : List Int) (atoms : Option (List Int)) (arity : Option Int := none) : Except Err Boolf :=
  new { fs := some l, av := atoms, arity := arity }
example : allSame (at' 123) [b "01" (some [123])] ∧ allSame (at' (-124)) [b "10" (some [123])] ∧
    allSame (b "0") [fs [] none (some 0), fs [] none (some 1), fs [] none (some 2), fs [] (some []), fs [] (some [123]), fs [] (some [123, 456])] ∧
    allSame (b "1") [fs [0] (some []), fs [0, 1] (some [1]), fs [0, 1, 2, 3] (some [0, 1]), fs [0, 1, 2, 3, 4, 5, 6, 7] (some [123, 456, 789])] ∧
    allSame (b "0101 0100") [fs [1, 3, 5] (some [0, 1, 2]), fs [1, 3, 5] none (some 3)] ∧
    allSame (fs [1, 3, 5] (some [77, 88, 99])) [b "0101 0100" (some [77, 88, 99])] ∧ allSame (fs [1, 3, 5] none (some 4)) [b "0101 0100 0000 0000"] ∧
    err (fs [123, 456] (some [3, 4, 5]) (some 12345)) = some .argCombo ∧ err (fs [123] (some [])) = some .argMismatch := by decide +kernel

/- boolf/subinit_methods/multi/_test.py:4-24 -/
example : allSame (new { muA := some [] }) [new { muXa := some [] }, b "1"] ∧ allSame (new { muO := some [] }) [new { muXo := some [] }, b "0"] ∧
    (((multis [.int 11, .int 22, .int 33, .int 44]).zip
      ["0000 0000 0000 0001", "0111 1111 1111 1111", "0110 1001 1001 0110", "1001 0110 0110 1001"]).all fun x =>
        allSame x.1 [b x.2 (some [11, 22, 33, 44])]) := by decide +kernel
example : allSame (new { muA := some [.int 0, .int 1] }) [b "0001"] ∧ allSame (new { muA := some [.int 0, .int 1, .int (-3)] }) [b "0001 0000"] ∧
    allSame (new { muO := some [.int 5, .int 7] }) [b "0111" (some [5, 7])] ∧
    allSame (new { muO := some [.int 5, .int 7, .int (-10)] }) [b "1111 0111" (some [5, 7, 9])] := by decide +kernel
example : let left := new { muA := some [.int (-1), .int (-2), .int (-3)] }
    let right := new { muA := some [.int 0, .int 1, .int 2] }
    allSame left [b "1000 0000"] ∧ allSame right [b "0000 0001"] ∧
    allSame (do new { muO := some [.boolf (← left), .boolf (← right)] }) [b "1000 0001"] ∧
    allSame (do new { muO := some [.boolf (← left), .boolf (← right), .int 3] }) [b "1000 0001 1111 1111"] := by decide +kernel

/- boolf/subinit_methods/tt/_test.py:9-63 -/
private noncomputable def int' (n : Int) (arity : Option Int) : Except Err Boolf := new { tt := some (.int n), arity := arity }
example : allSame (b "0000") [b "0", new { tt := some (.bool false) }] ∧ allSame (b "1111") [b "1", new { tt := some (.bool true) }] ∧
    allSame (b "0011 0011" (some [77, 88, 99])) [b "01" (some [88])] ∧
    allSame (do new { tt := some (.binv (← mk { vector := some (.str "0110 0110".toList) })) }) [b "0110"] ∧
    allSame (int' 1 (some 0)) [b "1"] ∧ allSame (int' 1 (some 1)) [b "10"] ∧ allSame (int' 1 (some 2)) [b "1000"] ∧
    allSame (int' 1 (some 3)) [b "1000 0000"] ∧ allSame (int' 6 (some 2)) [int' 102 (some 3), b "0110"] ∧ allSame (int' 123 (some 3)) [b "1101 1110"] ∧
    err (int' 123 none) = some .argType ∧ err (b "") = some .argValue ∧ err (li []) = some .argValue ∧ err (new { tt := some (.binv ⟨[]⟩) }) = some .argValue ∧
    err (new {}) = some .argCombo := by decide +kernel
example : (new { tt := some (.str "1111".toList), skip := true }).map (fun f => (f.atomvals, f.root.vector, f.fullspots, f.isInflated, f.isConstant)) =
      .ok ([0, 1], [true, true, true, true], [0, 1, 2, 3], true, false) ∧
    (new { tt := some (.str "0110 0110".toList), skip := true }).map (fun f => (f.atomvals, Except.ok f.root.vector, f.isInflated)) =
      .ok ([0, 1, 2], bits "0110 0110", true) ∧
    (new { tt := some (.str "0110 0110".toList), av := some [77, 88, 99], skip := true }).map (fun f => (f.atomvals, f.isInflated)) =
      .ok ([77, 88, 99], true) := by decide +kernel

/- boolf/test/03_splits/boolf_3_test.py:4-23 -/
private def blocks (f : Except Err Boolf) : Except Err (List (List Int) × List (Option Int)) := f.bind (·.eqBlocksAndPrefSide)
example : [b "0", b "1"].map (fun f => f.map (·.fullspots)) = [.ok [], .ok [0]] ∧ [b "0", b "1"].map (·.bind (·.splits)) = [.ok [], .ok []] ∧
    [b "0", b "1"].map (·.bind (·.splitsOnesided)) = [.ok [], .ok []] ∧ [b "0", b "1"].map (·.bind (·.splitsOverlapCounts)) = [.ok [], .ok []] ∧
    [b "0", b "1"].map (·.bind (·.splitsEqual)) = [.ok [], .ok []] ∧ [b "0", b "1"].map blocks = [.ok ([], []), .ok ([], [])] := by decide +kernel
example : allSame ((b "0").bind (·.bloatlessBoolf)) [b "0"] ∧ allSame ((b "1").bind (·.bloatlessBoolf)) [b "1"] ∧
    [at' 0, at' (-1)].map (fun f => f.map fun f => (f.splits, f.splitsOverlapCounts, f.splitsEqual, (f.eqBlocksAndPrefSide).map Prod.fst)) =
      [.ok (.ok [([1], [])], .ok [], .ok [], .ok [[0]]), .ok (.ok [([], [0])], .ok [], .ok [], .ok [[0]])] ∧
    [b "0111", b "0111" (some [33, 99])].map (fun f => f.bind (·.splits)) = List.replicate 2 (.ok [([1, 3], [2]), ([2, 3], [1])]) := by decide +kernel

/- boolf/test/04_splits_overlap_counts/boolf_4_test.py:10-62 -/
private def data (f : Except Err Boolf) := f.map fun f => (f.fullspots, f.splits, f.splitsOverlapCounts, f.splitsEqual, f.splitsOnesided, (f.eqBlocksAndPrefSide).map Prod.fst)
example : data (b "1000 0001") = .ok ([0, 7], .ok [([7], [0]), ([7], [0]), ([7], [0])], .ok [((0, 1), 2), ((0, 2), 2), ((1, 2), 2)],
    .ok [((0, 1), true), ((0, 2), true), ((1, 2), true)], .ok [false, false, false], .ok [[0, 1, 2]]) := by decide +kernel
example : data (b "0000 0001") = .ok ([7], .ok [([7], []), ([7], []), ([7], [])], .ok [((0, 1), 1), ((0, 2), 1), ((1, 2), 1)],
    .ok [((0, 1), true), ((0, 2), true), ((1, 2), true)], .ok [true, true, true], .ok [[0, 1, 2]]) := by decide +kernel
example : data (b "0000 1001") = .ok ([4, 7], .ok [([7], [4]), ([7], [4]), ([4, 7], [])], .ok [((0, 1), 2), ((0, 2), 2), ((1, 2), 2)],
      .ok [((0, 1), true), ((0, 2), false), ((1, 2), false)], .ok [false, false, true], .ok [[0, 1], [2]]) ∧
    ((b "0000 1001").bind (·.bloatlessBoolf)).bind (·.bundles) = .ok [[0]] ∧ (b "0000 1001").bind (·.bundles) = .error .boolfNotBlightless := by decide +kernel
example : data (b "1101 0001") = .ok ([0, 1, 3, 7], .ok [([1, 3, 7], [0]), ([3, 7], [0, 1]), ([7], [0, 1, 3])], .ok [((0, 1), 3), ((0, 2), 3), ((1, 2), 3)],
      .ok [((0, 1), false), ((0, 2), false), ((1, 2), false)], .ok [false, false, false], .ok [[0], [1], [2]]) ∧
    (b "1101 0001").bind (·.bundles) = .ok [[0], [1], [2]] := by decide +kernel

/- boolf/test/04_splits_overlap_counts/boolf_4_test.py:65-109 -/
private def spc (f : Except Err Boolf) : Except Err (List (List Int) × List (Int × Int)) := (f.bind (·.bloat)).map fun s => (s.equalPart.blocks, s.compPairs)
example : let a := b "1001 0001" (some [10, 20, 30])
    data a = .ok ([0, 3, 7], .ok [([3, 7], [0]), ([3, 7], [0]), ([7], [0, 3])], .ok [((0, 1), 2), ((0, 2), 3), ((1, 2), 3)],
      .ok [((0, 1), true), ((0, 2), false), ((1, 2), false)], .ok [false, false, false], .ok [[0, 1], [2]]) ∧
    (blocks a).map Prod.snd = .ok [none, none] ∧ a.bind (·.bloatlessAtomkeysUndeflated) = .ok [0, 2] ∧ spc a = .ok ([[0, 1]], []) ∧
    allSame (a.bind (·.bloatBoolf)) [b "1001" (some [10, 20])] ∧ allSame (a.bind (·.bloatlessBoolf)) [b "1101" (some [10, 30])] ∧
    [0, 3, 4, 7].map (fun n => a.bind (·.bloatlessSpotint n)) = [.ok 0, .ok 1, .ok 2, .ok 3] ∧
    [1, 2, 5, 6].map (fun n => a.bind (·.bloatlessSpotint n)) = List.replicate 4 (.error .bloatMismatch) ∧
    [8, 9, 10].map (fun n => a.bind (·.bloatlessSpotint n)) = List.replicate 3 (.error .tooBig) := by decide +kernel
example : let a := b "0110 0100" (some [10, 20, 30])
    data a = .ok ([1, 2, 5], .ok [([1, 5], [2]), ([2], [1, 5]), ([5], [1, 2])], .ok [((0, 1), 2), ((0, 2), 3), ((1, 2), 3)],
      .ok [((0, 1), true), ((0, 2), false), ((1, 2), false)], .ok [false, false, false], .ok [[0, 1], [2]]) ∧
    (blocks a).map Prod.snd = .ok [some 0, none] ∧ a.bind (·.bloatlessAtomkeysUndeflated) = .ok [0, 2] ∧ spc a = .ok ([], [(0, 1)]) ∧
    allSame (a.bind (·.bloatlessBoolf)) [b "1101" (some [10, 30])] ∧
    [1, 2, 5, 6].map (fun n => a.bind (·.bloatlessSpotint n)) = [.ok 1, .ok 0, .ok 3, .ok 2] ∧
    [0, 3, 4, 7].map (fun n => a.bind (·.bloatlessSpotint n)) = List.replicate 4 (.error .bloatMismatch) ∧
    [8, 9, 10].map (fun n => a.bind (·.bloatlessSpotint n)) = List.replicate 3 (.error .tooBig) := by decide +kernel

/- boolf/test/05_blight/boolf_5_test.py:7-29, 33-62 and 74-101 -/
private noncomputable def blight (component added merge : Except Err Boolf) : Bool :=
  let bloatless := component.bind (·.bloatlessBoolf)
  let bloat := component.bind (·.bloatBoolf)
  allSame component [and bloatless bloat] && allSame merge [and bloatless (and bloat added), and component added,
    and (merge.bind (·.bloatlessBoolf)) (merge.bind (·.bloatBoolf))]
private noncomputable def unbloated (bloatless bloat merge : Except Err Boolf) : Bool :=
  blight bloatless bloat merge && decide (spc bloatless = .ok ([], [])) && allSame bloatless [merge.bind (·.bloatlessBoolf)] &&
    allSame bloat [merge.bind (·.bloatBoolf)]
private noncomputable def comp (part : List (List Int)) (pairs : List (Int × Int)) : Except Err Boolf := do compBoolf (← SPC.new (some part) (some pairs))
example : blight (b "0001001010001100") (b "0110" (some [1, 4])) (b "00010010000000000000000010001100") := by decide +kernel
example : blight (b "0001001010001100" (some [1, 3, 5, 7])) (b "0110" (some [3, 9])) (b "00010010000000000000000010001100" (some [1, 3, 5, 7, 9])) := by
  decide +kernel
example : blight (b "0001001010001100") (b "1001" (some [0, 4])) (b "00000010100010000001000000000100") := by decide +kernel
example : blight (b "0110") (b "0110" (some [1, 2])) (b "00100100") ∧ blight (b "0110") (b "1001") (b "0") := by decide +kernel
example : unbloated (b "0111001010000000") (b "0110" (some [1, 4])) (b "00110010000000000100000010000000") := by decide +kernel
example : unbloated (b "0111001010000000" (some [1, 3, 5, 7])) (b "0110" (some [3, 9])) (b "00110010000000000100000010000000" (some [1, 3, 5, 7, 9])) := by
  decide +kernel
example : unbloated (b "1011001110110100") (b "0010100000010100" (some [0, 1, 4, 5]))
    (b "0010001000100000100000001000000000010001000100000000000000000100") := by decide +kernel
example : unbloated (b "01101110") (b "0110" (some [0, 3])) (b "0100010000101010") ∧ unbloated (b "1") (comp [[0, 2]] [(0, 1)]) (b "00100100") ∧
    unbloated (b "1") (comp [[1, 5]] [(1, 3)]) (b "00100100" (some [1, 3, 5])) ∧ unbloated (b "01110001") (b "1") (b "01110001") := by decide +kernel

/- boolf/test/06_decomposition/boolf_6_test.py:7-57 -/
private noncomputable def kibime : Except Err Boolf := b "1111 0010 1000 0000"
private noncomputable def murife : Except Err Boolf := b "1101 0010 1000 0000"
private noncomputable def menabe : Except Err Boolf := b "0111 0010 1000 0000"
private noncomputable def tefabi : Except Err Boolf := b "0101 0010 1000 0000"
private noncomputable def fobope : Except Err Boolf := b "1111 0000 1000 0000"
private def four (f : Except Err Boolf) := f.map fun f => (f.splitsOverlapCounts, f.splitsEqual, f.splitsOnesided)
private noncomputable def bloated (f : Except Err Boolf) : Bool :=
  let eq := and f (b "1001" (some [3, 4]))
  let co := and f (b "0110" (some [3, 4]))
  allSame f [eq.bind (·.bloatlessBoolf), co.bind (·.bloatlessBoolf)] && decide (spc eq = .ok ([[3, 4]], [])) && decide (spc co = .ok ([], [(3, 4)])) &&
    allSame kibime [f.bind (·.gaplessBoolf)]
private noncomputable def bundled (f : Except Err Boolf) : Bool :=
  allSame f [f.bind (·.bloatlessBoolf)] && decide ((blocks f).map Prod.fst = .ok [[0], [1], [2], [3]]) && decide (f.bind (·.bundles) = .ok [[0, 1], [2], [3]]) &&
    decide (f.bind (·.bundleOverlapCounts) = .ok [([0, 1], ([], [(0, 1)])), ([2], ([], [])), ([3], ([], []))])
example : [kibime, murife, menabe, tefabi, fobope].map (fun f => f.map fun f => (f.fullspots, f.splits)) =
    [.ok ([0, 1, 2, 3, 6, 8], .ok [([1, 3], [0, 2, 6, 8]), ([2, 3, 6], [0, 1, 8]), ([6], [0, 1, 2, 3, 8]), ([8], [0, 1, 2, 3, 6])]),
      .ok ([0, 1, 3, 6, 8], .ok [([1, 3], [0, 6, 8]), ([3, 6], [0, 1, 8]), ([6], [0, 1, 3, 8]), ([8], [0, 1, 3, 6])]),
      .ok ([1, 2, 3, 6, 8], .ok [([1, 3], [2, 6, 8]), ([2, 3, 6], [1, 8]), ([6], [1, 2, 3, 8]), ([8], [1, 2, 3, 6])]),
      .ok ([1, 3, 6, 8], .ok [([1, 3], [6, 8]), ([3, 6], [1, 8]), ([6], [1, 3, 8]), ([8], [1, 3, 6])]),
      .ok ([0, 1, 2, 3, 8], .ok [([1, 3], [0, 2, 8]), ([2, 3], [0, 1, 8]), ([], [0, 1, 2, 3, 8]), ([8], [0, 1, 2, 3])])] ∧
    fobope.bind (·.splitsOnesided) = .ok [false, false, true, false] ∧
    [kibime, murife, menabe, tefabi].map four = List.replicate 4 (.ok
      (.ok [((0, 1), 4), ((0, 2), 3), ((0, 3), 3), ((1, 2), 3), ((1, 3), 3), ((2, 3), 3)],
      .ok [((0, 1), false), ((0, 2), false), ((0, 3), false), ((1, 2), false), ((1, 3), false), ((2, 3), false)], .ok [false, false, false, false])) := by
  decide +kernel
example : bloated kibime ∧ bloated murife := by decide +kernel
example : bloated menabe ∧ bloated tefabi := by decide +kernel
example : [kibime, murife, menabe, tefabi, fobope].all bundled := by decide +kernel

end Verif.BF
