import Verif.Boolf.Model13
import Verif.Boolf.Model3
import Verif.Boolf.Model4
import Verif.Boolf.Model5
import Verif.Boolf.Model9
import Verif.Boolf.Model11
import Verif.Boolf.Model12
import Verif.Boolf.Model19
import Verif.Boolf.Model21
import Verif.Boolf.Model22
import Verif.Boolf.Model24

/-!
# The tests of the methods of boolf/, replayed on the model

As Verif/Tests/Boolf.lean.
-/

set_option synthInstance.maxSize 2048
set_option synthInstance.maxHeartbeats 400000

namespace Verif.BF
open Verif.Py Verif.BV Verif.SP Verif.SPC Verif.A

/-- `Boolf(s)` and `Boolf(s, atoms)` -/
private noncomputable def b (s : String) (atoms : Option (List Int) := none) : Except Err Boolf := new { tt := some (.str s.toList), av := atoms }
/-- all are equal to the first -/
private def allSame (f : Except Err Boolf) (l : List (Except Err Boolf)) : Bool := l.all fun g => decide ((do return (← f).eq (← g)) = Except.ok true)
/-- `Binv(s).vector` -/
private def bits (s : String) : Except Err (List Bool) := (mk { vector := some (.str s.toList) }).map (·.vector)
/-- the error -/
private def err {α : Type} (a : Except Err α) : Option Err := match a with
  | .error e => some e
  | .ok _ => none
private noncomputable def zh (n : Int) : Except Err Boolf := new { zhe := some n }
private noncomputable def int' (n : Int) (arity : Int) : Except Err Boolf := new { tt := some (.int n), arity := some arity }

/- boolf/methods/tt/_test.py:11-25 -/
private noncomputable def tta (f : Except Err Boolf) (a : TTArg) : Except Err (List Bool) := (f.bind (·.tt a)).map (·.vector)
example : let f := b "0000 0000 0000 1111"
    [tta f (.arity 5), tta f (.atoms [0, 1, 2, 3, 4])] = List.replicate 2 (bits "0000 0000 0000 1111 0000 0000 0000 1111") ∧
    [tta f .noArg, tta f (.arity 4), tta f (.atoms [0, 1, 2, 3])] = List.replicate 3 (bits "0000 0000 0000 1111") ∧
    tta f (.atoms [1, 2, 3]) = bits "0000 0011" ∧ tta f (.atoms [2, 3]) = bits "0001" ∧ err (tta f (.arity 3)) = some .argTooSmall ∧
    err (tta f (.atoms [3])) = some .argMismatch ∧ err (tta f (.atoms [1, 3])) = some .argMismatch := by decide +kernel

/- boolf/methods/walsh_spectrum/_test.py:9-39; the examples gilipi and dukeli -/
example : let g := b "1010 0110"
    g.bind (·.walshSpectrum) = .ok [4, 2, 0, -2, 0, 2, 0, 2] ∧ g.bind (·.walshSpectrumAbs) = .ok [4, 2, 0, 2, 0, 2, 0, 2] ∧
    g.bind (·.walshSpectrumLayered) = .ok [[4], [2, 0, 0], [-2, 2, 0], [2]] ∧ g.bind (·.walshSpectrumAbsLayered) = .ok [[4], [2, 0, 0], [2, 2, 0], [2]] ∧
    g.bind (·.walshSpectrum (.arity 4)) = .ok [8, 4, 0, -4, 0, 4, 0, 4, 0, 0, 0, 0, 0, 0, 0, 0] ∧
    g.bind (·.walshSpectrumLayered (.arity 4)) = .ok [[8], [4, 0, 0, 0], [-4, 4, 0, 0, 0, 0], [4, 0, 0, 0], [0]] ∧
    err (g.bind (·.walshSpectrum (.arity 2))) = some .argTooSmall ∧ err (g.bind (·.walshSpectrumLayered (.arity 2))) = some .argTooSmall := by decide +kernel
example : let d := b "1111 1010 1000 1000"
    d.bind (·.walshSpectrum) = .ok [8, 4, 2, 2, 2, -2, 0, 0, 4, 0, -2, -2, 2, -2, 0, 0] ∧
    d.bind (·.walshSpectrumLayered) = .ok [[8], [4, 2, 2, 4], [2, -2, 0, 0, -2, 2], [0, -2, -2, 0], [0]] ∧
    d.bind (·.walshSpectrumAbs) = .ok [8, 4, 2, 2, 2, 2, 0, 0, 4, 0, 2, 2, 2, 2, 0, 0] ∧
    d.bind (·.walshSpectrumAbsLayered) = .ok [[8], [4, 2, 2, 4], [2, 2, 0, 0, 2, 2], [0, 2, 2, 0], [0]] ∧
    (b "0").bind (·.walshSpectrum) = .ok [0] ∧ (b "1").bind (·.walshSpectrum) = .ok [1] ∧ (setUnary 1).walshSpectrum = .ok [2, 0, -2, 0] ∧
    (setUnary 2).walshSpectrum = .ok [4, 0, 0, 0, -4, 0, 0, 0] ∧ (setUnary 3).walshSpectrum = .ok [8, 0, 0, 0, 0, 0, 0, 0, -8, 0, 0, 0, 0, 0, 0, 0] := by
  decide +kernel

/- boolf/methods/inflated_fullspots/_test.py:8-46 -/
private noncomputable def bAndD : Except Err Boolf := b "0001" (some [1, 3])
example : bAndD.map (·.fullspots) = .ok [3] ∧ tta bAndD .noArg = bits "0000 0000 0011 0011" ∧
    allSame bAndD [b "0000 0000 0011 0011" (some [0, 1, 2, 3]), b "0000 0011" (some [0, 1, 3]), b "0000 0101" (some [1, 2, 3]),
      b "0000 0000 0011 0011 0000 0000 0011 0011" (some [0, 1, 2, 3, 4]), b "0000 0101 0000 0101" (some [1, 2, 3, 4]),
      b "0000 0101 0000 0101 0000 0101 0000 0101" (some [1, 2, 3, 4, 5]), b "0000 0101 0000 0101 0000 0101 0000 0101" (some [1, 2, 3, 4, 99])] ∧
    [[0, 1, 2, 3], [0, 1, 3], [1, 2, 3], [0, 1, 2, 3, 4], [1, 2, 3, 4], [1, 2, 3, 4, 5], [1, 2, 3, 4, 99]].map (fun l =>
      (bAndD.bind (·.inflatedFullspots l)).map fun s => s.insertionSort (· ≤ ·)) =
      [.ok [10, 11, 14, 15], .ok [6, 7], .ok [5, 7], .ok [10, 11, 14, 15, 26, 27, 30, 31], .ok [5, 7, 13, 15], .ok [5, 7, 13, 15, 21, 23, 29, 31],
        .ok [5, 7, 13, 15, 21, 23, 29, 31]] ∧
    err (bAndD.bind (·.inflatedFullspots [0, 1, 2])) = some .argMismatch := by decide +kernel

/- boolf/methods/bitwise/_test.py:4-36 -/
private noncomputable def op (o : Boolf → Boolf → Except Err Boolf) (f g : Except Err Boolf) : Except Err Boolf := do o (← f) (← g)
example : let x := b "01"
    let y := b "0011"
    let z := b "0000 1111"
    allSame (b "0001") [op Boolf.and x y] ∧ allSame (b "0111") [op Boolf.or x y] ∧ allSame (b "0110") [op Boolf.xor x y] ∧
    allSame (b "0000 0001") [op Boolf.and (op Boolf.and x y) z] ∧ allSame (b "0001 0000") [op Boolf.and (op Boolf.and x y) (z.bind (·.complement))] ∧
    allSame (b "0111 1111") [op Boolf.or (op Boolf.or x y) z] ∧ allSame (b "0110 1001") [op Boolf.xor (op Boolf.xor x y) z] ∧
    (do (← op Boolf.xor (op Boolf.xor x y) z).bitwiseLt (← op Boolf.or (op Boolf.or x y) z)) = .ok true ∧ (do (← x).bitwiseLt (← y)) = .ok false ∧
    (do (← b "0100").bitwiseLt (← b "0110")) = .ok true ∧ (do (← b "1110").bitwiseGt (← b "0110")) = .ok true ∧
    allSame (b "10") [x.bind (·.complement)] ∧ allSame (b "1100") [y.bind (·.complement)] ∧ allSame (b "1001") [(b "0110").bind (·.complement)] ∧
    (do (← b "1").bitwiseLt (← b "1")) = .ok false ∧ (do (← b "1").bitwiseLe (← b "1")) = .ok true ∧ (do (← b "1").bitwiseGe (← b "1")) = .ok true ∧
    allSame (b "0") [(b "1").bind (·.complement)] := by decide +kernel

/- boolf/methods/consul/_test.py:6-53; the example bamako up to arity 6 -/
private def sequence : List Nat := [0, 0, 1, 1, 2, 2, 3, 3, 3, 3, 2, 2, 1, 1, 0, 0]
example : [(0, 2), (1, 4), (2, 16)].all fun x : Nat × Nat => (List.range x.2).all fun i =>
    decide ((int' i x.1).bind (·.consul (.arity x.1)) = .ok (sequence.getD i 9)) && decide ((int' i x.1).bind (·.consulSlow x.1) = .ok (sequence.getD i 9)) := by
  decide +kernel
private def consuls (f : Except Err Boolf) (l : List Nat) : List (Except Err Nat) := l.map fun n => f.bind (·.consul (.arity n))
private def consulsSlow (f : Except Err Boolf) (l : List Nat) : List (Except Err Nat) := l.map fun n => f.bind (·.consulSlow n)
private def consulWeights (f : Except Err Boolf) (l : List Nat) : List (Except Err Nat) := l.map fun n => f.bind (·.consulWeight (.arity n))
example : consuls (b "1111 1110 1110 1000") [4, 5, 6] = [.ok 0, .ok 16, .ok 0] ∧ consulsSlow (b "1111 1110 1110 1000") [4, 5] = [.ok 0, .ok 16] ∧
    consulWeights (b "1111 1110 1110 1000") [4, 5, 6] = [.ok 0, .ok 1, .ok 0] := by decide +kernel
example : consuls (b "1001 0100") [3, 4, 5] = [.ok 6, .ok 8, .ok 0] ∧ consulsSlow (b "1001 0100") [3, 4, 5] = [.ok 6, .ok 8, .ok 0] ∧
    consulWeights (b "1001 0100") [3, 4, 5] = [.ok 2, .ok 1, .ok 0] ∧ consuls (b "1010 0000") [3, 4, 5] = [.ok 2, .ok 0, .ok 0] ∧
    consulsSlow (b "1010 0000") [3, 4, 5] = [.ok 2, .ok 0, .ok 0] ∧ consulWeights (b "1010 0000") [3, 4, 5] = [.ok 1, .ok 0, .ok 0] ∧
    consuls (b "0001") [2, 3, 4, 5] = [.ok 3, .ok 4, .ok 0, .ok 0] ∧ consulsSlow (b "0001") [2, 3, 4, 5] = [.ok 3, .ok 4, .ok 0, .ok 0] ∧
    consulWeights (b "0001") [2, 3, 4, 5] = [.ok 2, .ok 1, .ok 0, .ok 0] ∧ (b "0").bind (·.consul) = .ok 0 ∧ (b "1").bind (·.consul) = .ok 0 := by
  decide +kernel

/- boolf/methods/_patron/_test.py:4-65 -/
example : [2, 28, 42, 52, 74, 84, 98, 124, 130, 156, 170, 180, 202, 212, 226, 252].all (fun n => decide ((zh n).bind (·.patronInt 3) = .ok 168)) ∧
    (zh 168).bind (·.patronInt 3) = .ok 0 ∧ (zh 168).bind (·.patronIndex 3) = .ok 0 ∧ allSame (b "0") [(zh 168).bind (·.patronBoolf 3)] ∧
    ((zh 168).bind (·.patronBoolf 3)).bind (·.prefectWalshAndOddness) = .ok (0, 0) := by decide +kernel
example : [0, 1, 2, 3, 4].all fun n : Nat => decide ((b "0").bind (·.patronInt n) = .ok 0) && allSame (b "0") [(b "0").bind (·.patronBoolf n)] &&
    decide ((b "1").bind (·.patronInt n) = .ok (2 ^ 2 ^ n - 2)) && allSame (int' (2 ^ 2 ^ n - 2) n) [(b "1").bind (·.patronBoolf n)] := by decide +kernel
example : let f := b "0100 1100"
    f.bind (·.patronInt 3) = .ok 200 ∧ f.bind (·.patronIndex 3) = .ok 12 ∧ allSame (b "0001 0011") [f.bind (·.patronBoolf 3)] ∧
    f.bind (·.patronRoyal 3) = .ok 72 ∧ f.bind (·.patronQuadrant 3) = .ok 2 ∧ (f.bind (·.patronBoolf 3)).bind (·.prefectWalshAndOddness) = .ok (2, 0) ∧
    f.bind (·.patronInt 4) = .ok 13000 ∧ f.bind (·.patronIndex 4) = .ok 50 ∧ allSame (b "0001 0011 0100 1100") [f.bind (·.patronBoolf 4)] ∧
    f.bind (·.patronRoyal 4) = .ok 13000 ∧ f.bind (·.patronQuadrant 4) = .ok 0 ∧
    (f.bind (·.patronBoolf 4)).bind (·.prefectWalshAndOddness) = .ok (10, 0) := by decide +kernel
example : [0, 15, 10, 5, 12, 3, 6, 9, 8, 7, 2, 13, 4, 11, 14, 1].zipIdx.all fun x : Int × Nat =>
    let key := int' x.2 2
    let odd := key.bind (·.isOdd)
    let quadrant := key.bind (·.quadrant)
    let perm : List Nat := [0, 4, 6, 2, 5, 1, 3, 7]
    let walsh := if key.bind (·.isOdious) = .ok true then 7 - perm.getD (x.2 - 8) 9 else perm.getD x.2 9
    let f := zh x.1
    let p := f.bind (·.patronBoolf 3)
    decide (f.bind (·.quadrant) = quadrant) && decide (f.bind (·.patronIndex 3) = .ok x.2) &&
      decide (p.bind (·.prefectWalshAndOddness) = odd.map fun o => (walsh, o.toNat)) &&
      decide (p.bind (·.prefectLeaderAndQuadrant) = quadrant.map fun q => (walsh / 2, q)) := by decide +kernel

/- boolf/methods/bloatless_spotint/_test.py:8-34; the example tokosi -/
private noncomputable def tokosi : Except Err Boolf := b "0001 0010 0000 0000  0000 0000 1000 1100" (some [1, 3, 5, 7, 9])
example : [2, 3, 6, 7, 24, 25, 28, 29].map (fun n => tokosi.bind (·.bloatlessSpotint n)) = [2, 3, 6, 7, 0, 1, 4, 5].map Except.ok ∧
    [10, 12, 23, 31].map (fun n => tokosi.bind (·.bloatlessSpotint n)) = List.replicate 4 (.error .bloatMismatch) ∧
    tokosi.bind (·.bloatlessSpotint 32) = .error .tooBig := by decide +kernel

/- boolf/metributes/_layered/_test.py:5-40; the examples medusa and sapigi -/
example : (b "1111 1111 1110 1010").bind (·.layeredTT) = .ok [[1], [1, 1, 1, 1], [1, 1, 1, 1, 1, 1], [1, 0, 0, 1], [0]] ∧
    (b "0101 0101 1110 1010").bind (·.layeredTT) = .ok [[0], [1, 0, 0, 1], [1, 1, 0, 1, 1, 1], [1, 0, 0, 1], [0]] ∧
    (b "1111 1111 1110 1010").bind (·.layeredWeight) = .ok [1, 4, 6, 2, 0] ∧ (b "0101 0101 1110 1010").bind (·.layeredWeight) = .ok [0, 2, 5, 2, 0] := by
  decide +kernel

/- boolf/metributes/_foibles/_test.py:7-39 -/
example : [b "0", b "01" (some [999]), b "0111" (some [88, 99])].map (·.bind (·.isOdd)) = List.replicate 3 (.ok false) ∧
    [b "1", b "10" (some [999]), b "1001" (some [88, 99])].map (·.bind (·.isOdd)) = List.replicate 3 (.ok true) ∧
    [b "0", b "10" (some [999]), b "1110" (some [88, 99])].map (·.bind (·.isOdious)) = List.replicate 3 (.ok false) ∧
    [b "1", b "01" (some [999]), b "1001" (some [88, 99])].map (·.bind (·.isOdious)) = List.replicate 3 (.ok true) ∧
    [b "0", b "1", b "01", b "0110", b "0001", b "0111"].map (·.bind (·.isUgly)) = [false, false, true, false, true, true].map Except.ok ∧
    [b "0", b "1001" (some [88, 99]), b "0101 0011" (some [77, 88, 99])].map (·.map (·.isMale)) = List.replicate 3 (.ok false) ∧
    [b "1", b "1011" (some [88, 99]), b "0101 0111" (some [77, 88, 99])].map (·.map (·.isMale)) = List.replicate 3 (.ok true) := by decide +kernel
example : (List.range 256).all fun i => decide ((zh i).bind (·.isOdd) = .ok (i % 2 == 1)) && decide ((int' i 3).bind (·.isOdd) = .ok (i % 2 == 1)) &&
    decide ((zh i).bind (·.isOdious) = .ok (intToWeight i % 2 == 1)) := by decide +kernel

/- boolf/a/int_to_rcv/_test.py:7-55, without the number 65536 -/
example : [0, 1, 2, 4, 16, 576].map (fun n => intToRcv n) = [.ok [], .ok [1], .ok [1, 1], .ok [1, 1, 1], .ok [1, 1, 1, 1], .ok [2, 4, 4, 2]] ∧
    [intToRcv 1 (some 0), intToRcv 9 (some 2)].map err = List.replicate 2 (some .valueError) ∧ [0, 1].map (intToRcv · (some 1)) = [.ok [0], .ok [1]] ∧
    [0, 1, 2, 3].map (intToRcv · (some 2)) = [.ok [0, 0], .ok [1, 0], .ok [1, 1], .ok [2, 1]] ∧
    [0, 1, 2, 3, 4, 5, 6, 7, 8, 9, 10, 11, 12, 13, 14, 15].map (intToRcv · (some 3)) = [[0, 0, 0], [1, 0, 0], [1, 1, 0], [2, 1, 0], [1, 1, 1], [2, 1, 1],
      [2, 2, 1], [3, 2, 1], [1, 2, 1], [2, 2, 1], [2, 3, 1], [3, 3, 1], [2, 3, 2], [3, 3, 2], [3, 4, 2], [4, 4, 2]].map Except.ok ∧
    intToRcv 65535 = .ok [16, 32, 32, 16] := by decide +kernel

/- boolf/a/praetor_int/_test.py:8-53 -/
example : (List.range 4).map (praetorInt · 1) = [0, 1, 1, 0].map Except.ok ∧
    (List.range 16).map (praetorInt · 2) = [0, 1, 2, 3, 1, 0, 3, 2, 2, 3, 0, 1, 3, 2, 1, 0].map Except.ok ∧
    (List.range 256).map (praetorInt · 3) = [0, 1, 2, 3, 4, 5, 6, 7, 8, 9, 10, 11, 12, 13, 14, 15,
      1, 0, 3, 2, 5, 4, 7, 6, 9, 8, 11, 10, 13, 12, 15, 14,
      2, 3, 0, 1, 6, 7, 4, 5, 10, 11, 8, 9, 14, 15, 12, 13,
      3, 2, 1, 0, 7, 6, 5, 4, 11, 10, 9, 8, 15, 14, 13, 12,
      4, 5, 6, 7, 0, 1, 2, 3, 12, 13, 14, 15, 8, 9, 10, 11,
      5, 4, 7, 6, 1, 0, 3, 2, 13, 12, 15, 14, 9, 8, 11, 10,
      6, 7, 4, 5, 2, 3, 0, 1, 14, 15, 12, 13, 10, 11, 8, 9,
      7, 6, 5, 4, 3, 2, 1, 0, 15, 14, 13, 12, 11, 10, 9, 8,
      8, 9, 10, 11, 12, 13, 14, 15, 0, 1, 2, 3, 4, 5, 6, 7,
      9, 8, 11, 10, 13, 12, 15, 14, 1, 0, 3, 2, 5, 4, 7, 6,
      10, 11, 8, 9, 14, 15, 12, 13, 2, 3, 0, 1, 6, 7, 4, 5,
      11, 10, 9, 8, 15, 14, 13, 12, 3, 2, 1, 0, 7, 6, 5, 4,
      12, 13, 14, 15, 8, 9, 10, 11, 4, 5, 6, 7, 0, 1, 2, 3,
      13, 12, 15, 14, 9, 8, 11, 10, 5, 4, 7, 6, 1, 0, 3, 2,
      14, 15, 12, 13, 10, 11, 8, 9, 6, 7, 4, 5, 2, 3, 0, 1,
      15, 14, 13, 12, 11, 10, 9, 8, 7, 6, 5, 4, 3, 2, 1, 0].map Except.ok ∧
    praetorInt 123 0 = .error .argTooSmall ∧ [praetorInt 4 1, praetorInt 16 2, praetorInt 256 3].map err = List.replicate 3 (some .argTooBig) := by decide +kernel

/- boolf/a/symmetric_to_index/_test.py:7-67 -/
example : [(0, [0, 1]), (1, [0, 3]), (2, [0, 6, 9, 15]), (3, [0, 24, 36, 60, 66, 90, 102, 126, 129, 153, 165, 189, 195, 219, 231, 255])].all (fun x :
      Nat × List Int => x.2.zipIdx.all fun y => decide (symmetricToIndex y.1 x.1 = .ok y.2)) ∧
    [symmetricToIndex 2 0, symmetricToIndex 4 1, symmetricToIndex 16 2, symmetricToIndex 256 3].map err = List.replicate 4 (some .argTooBig) ∧
    [symmetricToIndex 1 1, symmetricToIndex 12 2, symmetricToIndex 123 3].map err = List.replicate 3 (some .argValue) := by decide +kernel

/- boolf/a/flat_to_layered/_test.py:5-35; the examples kagusi and subaru -/
example : flatToLayered [0, 1, 1, 1] = .ok [[0], [1, 1], [1]] ∧
    flatToLayered (List.range 16) = .ok [[0], [1, 2, 4, 8], [3, 5, 6, 9, 10, 12], [7, 11, 13, 14], [15]] ∧
    flatToPlaces [false, true, true, true] = .ok [(0, ([0], [])), (1, ([], [1, 2])), (2, ([], [3]))] ∧
    (bits "0111 0000 1000 1100").bind flatToPlaces =
      .ok [(0, ([0], [])), (1, ([4], [1, 2, 8])), (2, ([5, 6, 9, 10], [3, 12])), (3, ([7, 11, 14], [13])), (4, ([15], []))] ∧
    (bits "1011 1111 1011 1100").bind flatToPlaces =
      .ok [(0, ([], [0])), (1, ([1], [2, 4, 8])), (2, ([9], [3, 5, 6, 10, 12])), (3, ([14], [7, 11, 13])), (4, ([15], []))] := by decide +kernel

/- boolf/a/layered_is_greater/_test.py:4-34 -/
example : [layeredIsGreater [[2, 0], [0, 2]] [[0, 1], [0, 3]], layeredIsGreater [[0, 2], [0, 1]] [[0, 1], [0, 2]],
    layeredIsGreater [[0, 2], [0, 1]] [[0, 1], [0, 3]], layeredIsGreater [[1], [1]] [[0], [3]], layeredIsGreater [[1, 0], [0, 2]] [[0, 1], [1, 1]],
    layeredIsGreater [[1, 0], [0, 2]] [[0, 1], [1, 2]]] = [true, true, false, false, true, false].map Except.ok := by decide +kernel

/- boolf/a/twin_misc/_test.py:7-79 -/
private def setOf (l : Except Err (List Nat)) : Except Err (List Nat) := l.map fun l => l.insertionSort (· ≤ ·)
example : (bits "1101 1110").bind (vectorToTwin · 3) = bits "1011 0010" ∧ (bits "0000").bind (vectorToTwin · 2) = bits "0000" ∧
    (bits "1000").bind (vectorToTwin · 2) = bits "1111" ∧ setOf (exposetToTwin [0, 1, 3, 4, 5, 6] 3) = .ok [0, 2, 3, 6] ∧ exposetToTwin [] 2 = .ok [] ∧
    setOf (exposetToTwin [0] 2) = .ok [0, 1, 2, 3] ∧ twinInt 77 3 = .ok 123 ∧ twinInt 123 3 = .ok 77 ∧
    [0, 1, 2, 3].map (twinInt · 1) = [0, 3, 2, 1].map Except.ok ∧
    [0, 1, 2, 3, 4, 5, 6, 7, 8, 9, 10, 11, 12, 13, 14, 15].map (twinInt · 2) = [0, 15, 10, 5, 12, 3, 6, 9, 8, 7, 2, 13, 4, 11, 14, 1].map Except.ok ∧
    (bits "1101 1110").bind (zheVectorToPrefect · 3) = bits "0101 1010" ∧ (bits "0000").bind (zheVectorToPrefect · 2) = bits "0000" ∧
    (bits "1000").bind (zheVectorToPrefect · 2) = bits "1111" ∧ setOf (zheExposetToPrefect [0, 1, 3, 4, 5, 6] 3) = .ok [1, 3, 4, 6] ∧
    zheExposetToPrefect [] 2 = .ok [] ∧ setOf (zheExposetToPrefect [0] 2) = .ok [0, 1, 2, 3] ∧ zheToPrefect 123 3 = .ok (5, 0) ∧
    (List.range 4).map (zheToPrefect · 1) = [(0, 0), (0, 1), (1, 0), (1, 1)].map Except.ok ∧
    (List.range 16).map (zheToPrefect · 2) = [(0, 0), (0, 1), (1, 0), (1, 1), (2, 0), (2, 1), (3, 0), (3, 1), (3, 1), (3, 0), (2, 1), (2, 0), (1, 1), (1, 0),
      (0, 1), (0, 0)].map Except.ok := by decide +kernel

/- boolf/a/sierpinski_twin/_test.py:5-29 -/
example : [("1001 0001 0000 0100", 0, "1001 0001 0000 0100", "1110 1111 1110 1010"), ("1100", 3, "1000 1000 0000 0000", "1111 0000 1111 0000"),
    ("0000 0100", 8, "0000 0100 0000 0000", "0000 0101 0000 0101"), ("10", 13, "1000 0000 0000 0000", "1111 1111 1111 1111")].all fun x :
      String × Nat × String × String => decide ((bits x.1).bind (sierpinskiTwin · x.2.1 4) = bits x.2.2.2) &&
        decide ((bits x.2.2.1).bind (vectorToTwin · 4) = bits x.2.2.2) := by decide +kernel

/- boolf/a/simple_gens/_test.py:7-145 -/
example : ([
    (.AND, [[1, 1, 1, 1, 1, 1, 1, 1], [0, 1, 0, 1, 0, 1, 0, 1], [0, 0, 1, 1, 0, 0, 1, 1], [0, 0, 0, 1, 0, 0, 0, 1], [0, 0, 0, 0, 1, 1, 1, 1], [0, 0, 0, 0, 0, 1, 0, 1], [0, 0, 0, 0, 0, 0, 1, 1], [0, 0, 0, 0, 0, 0, 0, 1]]),
    (.XAND, [[1, 1, 1, 1, 1, 1, 1, 1], [0, 1, 0, 1, 0, 1, 0, 1], [0, 0, 1, 1, 0, 0, 1, 1], [1, 0, 0, 1, 1, 0, 0, 1], [0, 0, 0, 0, 1, 1, 1, 1], [1, 0, 1, 0, 0, 1, 0, 1], [1, 1, 0, 0, 0, 0, 1, 1], [0, 1, 1, 0, 1, 0, 0, 1]]),
    (.OR, [[0, 0, 0, 0, 0, 0, 0, 0], [0, 1, 0, 1, 0, 1, 0, 1], [0, 0, 1, 1, 0, 0, 1, 1], [0, 1, 1, 1, 0, 1, 1, 1], [0, 0, 0, 0, 1, 1, 1, 1], [0, 1, 0, 1, 1, 1, 1, 1], [0, 0, 1, 1, 1, 1, 1, 1], [0, 1, 1, 1, 1, 1, 1, 1]]),
    (.XOR, [[0, 0, 0, 0, 0, 0, 0, 0], [0, 1, 0, 1, 0, 1, 0, 1], [0, 0, 1, 1, 0, 0, 1, 1], [0, 1, 1, 0, 0, 1, 1, 0], [0, 0, 0, 0, 1, 1, 1, 1], [0, 1, 0, 1, 1, 0, 1, 0], [0, 0, 1, 1, 1, 1, 0, 0], [0, 1, 1, 0, 1, 0, 0, 1]]),
    (.EQ, [[0, 0, 0, 0, 0, 0, 0, 0], [1, 1, 1, 1, 1, 1, 1, 1], [1, 1, 1, 1, 1, 1, 1, 1], [1, 0, 0, 1, 1, 0, 0, 1], [1, 1, 1, 1, 1, 1, 1, 1], [1, 0, 1, 0, 0, 1, 0, 1], [1, 1, 0, 0, 0, 0, 1, 1], [1, 0, 0, 0, 0, 0, 0, 1]]),
    (.SAND, [[0, 0, 0, 0, 0, 0, 0, 0], [1, 0, 1, 0, 1, 0, 1, 0], [1, 1, 0, 0, 1, 1, 0, 0], [0, 1, 1, 0, 0, 1, 1, 0], [1, 1, 1, 1, 0, 0, 0, 0], [0, 1, 0, 1, 1, 0, 1, 0], [0, 0, 1, 1, 1, 1, 0, 0], [0, 0, 0, 1, 0, 1, 1, 0]]),
    (.GAND, [[1, 1, 1, 1, 1, 1, 1, 1], [1, 1, 1, 1, 1, 1, 1, 1], [1, 1, 1, 1, 1, 1, 1, 1], [0, 1, 1, 1, 0, 1, 1, 1], [1, 1, 1, 1, 1, 1, 1, 1], [0, 1, 0, 1, 1, 1, 1, 1], [0, 0, 1, 1, 1, 1, 1, 1], [0, 0, 0, 1, 0, 1, 1, 1]]),
    (.ESAND, [[1, 1, 1, 1, 1, 1, 1, 1], [1, 0, 1, 0, 1, 0, 1, 0], [1, 1, 0, 0, 1, 1, 0, 0], [0, 1, 1, 1, 0, 1, 1, 1], [1, 1, 1, 1, 0, 0, 0, 0], [0, 1, 0, 1, 1, 1, 1, 1], [0, 0, 1, 1, 1, 1, 1, 1], [0, 0, 0, 1, 0, 1, 1, 0]]),
    (.OSAND, [[0, 0, 0, 0, 0, 0, 0, 0], [1, 1, 1, 1, 1, 1, 1, 1], [1, 1, 1, 1, 1, 1, 1, 1], [0, 1, 1, 0, 0, 1, 1, 0], [1, 1, 1, 1, 1, 1, 1, 1], [0, 1, 0, 1, 1, 0, 1, 0], [0, 0, 1, 1, 1, 1, 0, 0], [0, 0, 0, 1, 0, 1, 1, 1]])]
    : List (Op × List (List Nat))).all fun x => decide ((List.range 8).map (fun i => (rawGen ((intToExposet i).map Int.ofNat) 3 x.1).map fun l => l.map Bool.toNat) = x.2.map Except.ok) := by
  decide +kernel

/- boolf/a/_noble/_test.py:10-102 -/
example : [(0, [0]), (1, [0, 2]), (2, [0, 6, 8, 14]), (3, [0, 30, 40, 54, 72, 86, 96, 126, 128, 158, 168, 182, 200, 214, 224, 254])].all (fun x :
      Nat × List Nat => x.2.zipIdx.all fun y => decide (indexToNoble y.2 x.1 = .ok y.1) && decide (nobleToIndex y.1 x.1 = .ok y.2)) ∧
    [0].map (nobleToRoyalAndQuadrant · 0) = [.ok (0, 0)] ∧ [0, 2].map (nobleToRoyalAndQuadrant · 1) = [.ok (0, 0), .ok (0, 3)] ∧
    [0, 6, 8, 14].map (nobleToRoyalAndQuadrant · 2) = [(0, 0), (0, 1), (0, 2), (0, 3)].map Except.ok ∧
    [0, 30, 40, 54, 72, 86, 96, 126, 128, 158, 168, 182, 200, 214, 224, 254].map (nobleToRoyalAndQuadrant · 3) =
      [(0, 0), (96, 1), (40, 0), (72, 1), (72, 0), (40, 1), (96, 0), (0, 1), (0, 2), (96, 3), (40, 2), (72, 3), (72, 2), (40, 3), (96, 2), (0, 3)].map
        Except.ok := by decide +kernel
example : [indexToNoble 2 1, indexToNoble 4 2, indexToNoble 16 3, nobleToIndex 3 1, nobleToIndex 15 2, nobleToIndex 255 3, nobleToRoyal 15 2,
      nobleToQuadrant 15 2, nobleToRoyal 255 3, nobleToQuadrant 255 3].map err = List.replicate 10 (some .argTooBig) ∧
    [nobleToIndex 1 1, nobleToIndex 12 2, nobleToIndex 123 3, nobleToRoyal 1 1, nobleToRoyal 12 2, nobleToRoyal 123 3, nobleToQuadrant 1 1,
      nobleToQuadrant 12 2, nobleToQuadrant 123 3].map err = List.replicate 9 (some .argValue) := by decide +kernel

/- boolf/methods/_quadrant_extensions/_test.py:4-166 -/
example : ([
    (1, [(0, 0), (3, 1)]),
    (2, [(0, 0), (3, 1), (2, 1), (1, 0), (2, 1), (1, 0), (0, 0), (3, 1)]),
    (3, [(0, 0), (3, 1), (2, 1), (1, 0), (2, 1), (1, 0), (0, 0), (3, 1), (2, 1), (1, 0), (0, 0), (3, 1), (0, 0), (3, 1), (2, 1), (1, 0), (2, 1), (1, 0), (0, 0), (3, 1), (0, 0), (3, 1), (2, 1), (1, 0), (0, 0), (3, 1), (2, 1), (1, 0), (2, 1), (1, 0), (0, 0), (3, 1), (2, 1), (1, 0), (0, 0), (3, 1), (0, 0), (3, 1), (2, 1), (1, 0), (0, 0), (3, 1), (2, 1), (1, 0), (2, 1), (1, 0), (0, 0), (3, 1), (0, 0), (3, 1), (2, 1), (1, 0), (2, 1), (1, 0), (0, 0), (3, 1), (2, 1), (1, 0), (0, 0), (3, 1), (0, 0), (3, 1), (2, 1), (1, 0), (2, 1), (1, 0), (0, 0), (3, 1), (0, 0), (3, 1), (2, 1), (1, 0), (0, 0), (3, 1), (2, 1), (1, 0), (2, 1), (1, 0), (0, 0), (3, 1), (0, 0), (3, 1), (2, 1), (1, 0), (2, 1), (1, 0), (0, 0), (3, 1), (2, 1), (1, 0), (0, 0), (3, 1), (0, 0), (3, 1), (2, 1), (1, 0), (0, 0), (3, 1), (2, 1), (1, 0), (2, 1), (1, 0), (0, 0), (3, 1), (2, 1), (1, 0), (0, 0), (3, 1), (0, 0), (3, 1), (2, 1), (1, 0), (2, 1), (1, 0), (0, 0), (3, 1), (0, 0), (3, 1), (2, 1), (1, 0), (0, 0), (3, 1), (2, 1), (1, 0), (2, 1), (1, 0), (0, 0), (3, 1)])]
    : List (Nat × List (Nat × Nat))).all fun x => x.2.zipIdx.all fun y =>
      let f := int' y.2 x.1
      let g := f.bind (·.complement)
      decide (f.bind (·.patronQuadrant x.1) = .ok y.1.1) && decide (f.bind (·.weightQuadrant (some x.1)) = .ok y.1.2) &&
        decide (g.bind (·.patronQuadrant x.1) = .ok (3 - y.1.1)) && decide (g.bind (·.weightQuadrant (some x.1)) = .ok (3 - y.1.2)) := by decide +kernel

/- boolf/methods/filtrated_boolf/_test.py:9-29 and 85-92; the examples medusa and darimi -/
private noncomputable def medusa : Except Err Boolf := b "1111 1111 1110 1010"
private noncomputable def darimi : Except Err Boolf := b "1111 0100 0000 0011" (some [1, 2, 3, 4])
example : let c := op Boolf.and (b "01" (some [1])) (b "01" (some [3]))
    allSame c [b "0001" (some [1, 3])] ∧ allSame (b "01" (some [1])) [c.bind (·.filtratedBoolf [1])] ∧ allSame (b "01" (some [3])) [c.bind (·.filtratedBoolf [3])] ∧
    [[1, 7], [0, 1, 2], [1, 3, 5, 7]].map (fun l => err ((b "0011 0101" (some [1, 3, 5])).bind (·.filtratedBoolf l))) =
      List.replicate 3 (some .atomvalsMismatch) ∧
    allSame (b "1") [medusa.bind (·.filtratedBoolf [1, 2, 3])] ∧ allSame (b "1111 1110" (some [0, 1, 3])) [medusa.bind (·.filtratedBoolf [0, 1, 3])] ∧
    allSame (b "1") [darimi.bind (·.filtratedBoolf [1, 2])] ∧
    allSame (b "1101" (some [2, 4])) [darimi.bind (·.filtratedBoolf [2, 4]), darimi.bind (·.filtratedBoolf [1, 2, 4])] ∧
    allSame (b "1101" (some [3, 4])) [darimi.bind (·.filtratedBoolf [3, 4])] ∧ allSame (b "1111 0111" (some [1, 2, 3])) [darimi.bind (·.filtratedBoolf [1, 2, 3])] ∧
    allSame (b "1101 0011" (some [1, 3, 4])) [darimi.bind (·.filtratedBoolf [1, 3, 4])] ∧
    allSame (b "1110 0001" (some [2, 3, 4])) [darimi.bind (·.filtratedBoolf [2, 3, 4])] := by decide +kernel

/- boolf/metributes/atom_to_crossing_atoms/_test.py:14-20, 36-42 and 48-55; the examples darimi, sapigi and medusa -/
example : darimi.bind (·.atomToCrossingAtoms) = .ok [(0, [1, 2, 3]), (1, [0, 2]), (2, [0, 1]), (3, [0])] ∧
    (b "0101 0101 1110 1010").bind (·.atomToCrossingAtoms) = .ok [(0, [1, 2]), (1, [0, 2, 3]), (2, [0, 1, 3]), (3, [1, 2])] ∧
    medusa.bind (·.atomToCrossingAtoms) = .ok [(0, [1, 2, 3]), (1, [0, 2, 3]), (2, [0, 1, 3]), (3, [0, 1, 2])] := by decide +kernel

/- boolf/metributes/_fissions/fissions/_test.py:5-35, boolf/metributes/_fissions/fission_walsh_spectra/_test.py:4-76 and
boolf/metributes/_fissions/fission_walsh_spectra_zipped/_test.py:4-42; the examples savona, dakota and taroka -/
private noncomputable def savona : Except Err Boolf := b "0100 0000 0110 1010"
private noncomputable def dakota : Except Err Boolf := b "1111 1011 1100 0000"
private noncomputable def taroka : Except Err Boolf := b "1010 1001"
private def pairs (l : List (String × String)) : Except Err (List (List Bool × List Bool)) := l.mapM fun x => do return (← bits x.1, ← bits x.2)
private def fissions (f : Except Err Boolf) : Except Err (List (List Bool × List Bool)) :=
  (f.bind (·.fissions)).map fun l => l.map fun x => (x.1.vector, x.2.vector)
example : fissions savona = pairs [("0000 0111", "1000 1000"), ("0100 0110", "0000 1010"), ("0100 0110", "0000 1010"), ("0100 0000", "0110 1010")] ∧
    fissions dakota = pairs [("1111 1000", "1101 1000"), ("1110 1100", "1111 0000"), ("1111 1100", "1011 0000"), ("1111 1011", "1100 0000")] ∧
    savona.bind (·.fissionsLayered) = .ok [([[0], [0, 0, 0], [0, 1, 1], [1]], [[1], [0, 0, 1], [0, 0, 0], [0]]),
      ([[0], [1, 0, 0], [0, 1, 1], [0]], [[0], [0, 0, 1], [0, 0, 1], [0]]), ([[0], [1, 0, 0], [0, 1, 1], [0]], [[0], [0, 0, 1], [0, 0, 1], [0]]),
      ([[0], [1, 0, 0], [0, 0, 0], [0]], [[0], [1, 1, 1], [0, 0, 1], [0]])] ∧
    dakota.bind (·.fissionsLayered) = .ok [([[1], [1, 1, 1], [1, 0, 0], [0]], [[1], [1, 0, 1], [1, 0, 0], [0]]),
      ([[1], [1, 1, 1], [0, 1, 0], [0]], [[1], [1, 1, 0], [1, 0, 0], [0]]), ([[1], [1, 1, 1], [1, 1, 0], [0]], [[1], [0, 1, 0], [1, 0, 0], [0]]),
      ([[1], [1, 1, 1], [1, 0, 1], [1]], [[1], [1, 0, 0], [0, 0, 0], [0]])] := by decide +kernel
example : savona.bind (·.fissionWalshSpectra) = .ok [([3, -1, -1, -1, -3, 1, 1, 1], [2, 2, 2, 2, 0, 0, 0, 0]),
      ([3, -1, 1, -3, -1, -1, 1, 1], [2, 2, 0, 0, -2, -2, 0, 0]), ([3, -1, 1, -3, -1, -1, 1, 1], [2, 2, 0, 0, -2, -2, 0, 0]),
      ([1, -1, 1, -1, 1, -1, 1, -1], [4, 2, 0, -2, 0, -2, 0, -2])] ∧
    dakota.bind (·.fissionWalshSpectraAbs) = .ok [([5, 1, 1, 1, 3, 1, 1, 1], [4, 0, 2, 2, 2, 2, 0, 0]), ([5, 1, 3, 1, 1, 1, 1, 1], [4, 0, 0, 0, 4, 0, 0, 0]),
      ([6, 0, 2, 0, 2, 0, 2, 0], [3, 1, 1, 1, 3, 1, 1, 1]), ([7, 1, 1, 1, 1, 1, 1, 1], [2, 0, 2, 0, 2, 0, 2, 0])] ∧
    taroka.bind (·.fissionWalshSpectraLayeredAbs) = .ok [([[3], [1, 1], [1]], [[1], [1, 1], [1]]), ([[2], [2, 0], [0]], [[2], [0, 0], [2]]),
      ([[2], [2, 0], [0]], [[2], [0, 0], [2]])] ∧
    savona.bind (·.fissionWalshSpectraZipped) = .ok [[3, 2, -1, 2, -1, 2, -1, 2, -3, 0, 1, 0, 1, 0, 1, 0], [3, -1, 2, 2, 1, -3, 0, 0, -1, -1, -2, -2, 1, 1, 0, 0],
      [3, -1, 1, -3, 2, 2, 0, 0, -1, -1, 1, 1, -2, -2, 0, 0], [1, -1, 1, -1, 1, -1, 1, -1, 4, 2, 0, -2, 0, -2, 0, -2]] ∧
    taroka.bind (·.fissionWalshSpectraAbsZipped) = .ok [[3, 1, 1, 1, 1, 1, 1, 1], [2, 2, 2, 0, 0, 0, 0, 2], [2, 2, 0, 0, 2, 0, 0, 2]] := by decide +kernel

/- boolf/methods/_hyperfission/_test.py:5-44; the example kovane -/
private noncomputable def kovane : Except Err Boolf := b "0001 0111 1110 1000"
example : (kovane.bind (·.hyperfission [1, 2])).map (fun l => l.map fun x => x.vector.map Bool.toNat) = .ok [[0, 0, 1, 1], [0, 1, 1, 0], [0, 1, 1, 0], [1, 1, 0, 0]] ∧
    kovane.bind (·.hyperfissionWalshSpectra [1, 2]) = .ok [[2, 0, -2, 0], [2, 0, 0, -2], [2, 0, 0, -2], [2, 0, 2, 0]] ∧
    kovane.bind (·.hyperfissionWalshSpectraAbs [1, 2]) = .ok [[2, 0, 2, 0], [2, 0, 0, 2], [2, 0, 0, 2], [2, 0, 2, 0]] ∧
    kovane.bind (·.hyperfissionWalshSpectraLayeredAbs [1, 2]) = .ok [[[2], [0, 2], [0]], [[2], [0, 0], [2]], [[2], [0, 0], [2]], [[2], [0, 2], [0]]] ∧
    kovane.bind (·.hyperfissionWalshSpectraZipped [1, 2]) = .ok [2, 0, 2, 0, 2, 0, 2, 0, -2, 0, 0, -2, 0, -2, 2, 0] := by decide +kernel

end Verif.BF
