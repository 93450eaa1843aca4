import Verif.Binv.Model
import Verif.SetPart.Model2

/-!
# The tests of binv/, replayed on the model

The expected values are those of the test files.  Calls with arguments of wrong types are left out.
-/

set_option synthInstance.maxSize 2048
set_option synthInstance.maxHeartbeats 400000

namespace Verif.BV
open Verif.Py

/-- `Binv(s)` for a string -/
private def bin (s : String) : Except Err Binv := mk { vector := some (.str s.toList) }
/-- `a == b` -/
private def same (a b : Except Err Binv) : Except Err Bool := do return (← a).eq (← b)

/- binv/_test.py:11-31 -/
example : ∀ v ∈ [mk { vector := some (.list [0, 1]) }, bin "01", bin "0 1", mk { vector := some (.binv ⟨[false, true]⟩) }],
    v.map (fun b => (b.vector, b.string, b.exposet, b.intval, b.length, b.weight)) = .ok ([false, true], ['0', '1'], [1], 2, 2, 1) ∧
    v.bind (·.pretty) = .ok ['0', '1'] ∧ v.bind (·.complement) = bin "10" ∧ v.bind (·.getItem 0) = .ok false ∧ v.bind (·.getItem 1) = .ok true ∧
    v.map (fun b => (List.range 3).map b.hasIndex) = .ok [false, true, false] := by decide +kernel
example : (bin "0001").bind (·.rev) = bin "1000" := by decide +kernel

/- binv/_test.py:34-50 -/
example : (bin "0101").map (fun b => (b.intval, b.exposet, b.length, b.weight, (List.range 6).map b.hasIndex)) =
      .ok (10, [1, 3], 4, 2, [false, true, false, true, false, false]) ∧
    (bin "0101").bind (·.complement) = bin "1010" ∧ (bin "0001").bind (·.flipBit 1) = bin "0101" ∧
    (do (← bin "01").add (← bin "10")) = bin "0110" := by decide +kernel

/- binv/_test.py:53-83 -/
example : mk { vector := some (.list [0, 1]), length := some 2 } = .error .argumentError ∧ mk { vector := some (.str "0 1".toList), length := some 2 } = .error .argumentError ∧
    mk { vector := some (.str "0 1".toList), intval := some 1 } = .error .argumentError ∧ mk {} = .error .argumentError ∧
    mk { intval := some 10, length := some 3 } = .error .lengthError ∧ mk { intval := some 1, length := some 0 } = .error .lengthError ∧
    mk { exposet := some [0, 1, 2], length := some 2 } = .error .lengthError ∧ mk { vector := some (.list [0, 1, 2]) } = .error .vectorEntry ∧
    mk { vector := some (.list [-1]) } = .error .vectorEntry ∧ bin "012" = .error .vectorEntry ∧ bin "-" = .error .vectorEntry ∧
    mk { intval := some (-5) } = .error .intvalError := by decide +kernel

/- binv/_test.py:86-94 -/
example : (mk { intval := some 10 }).map (·.string) = .ok "0101".toList ∧ (mk { intval := some 10, length := some 4 }).map (·.string) = .ok "0101".toList ∧
    (mk { intval := some 10, length := some 6 }).map (·.string) = .ok "010100".toList ∧
    (mk { intval := some 10, minimalLength := some 3 }).map (·.string) = .ok "0101".toList ∧
    (mk { intval := some 3, minimalLength := some 3 }).map (·.string) = .ok "110".toList := by decide +kernel

/- binv/_test.py:97-102 -/
example : (List.range 17).map (fun i : Nat => (mk { intval := some (i : Int) }).map fun b => (b.intval, b.exposet)) =
    [.ok (0, []), .ok (1, [0]), .ok (2, [1]), .ok (3, [0, 1]), .ok (4, [2]), .ok (5, [0, 2]), .ok (6, [1, 2]), .ok (7, [0, 1, 2]), .ok (8, [3]), .ok (9, [0, 3]),
      .ok (10, [1, 3]), .ok (11, [0, 1, 3]), .ok (12, [2, 3]), .ok (13, [0, 2, 3]), .ok (14, [1, 2, 3]), .ok (15, [0, 1, 2, 3]), .ok (16, [4])] := by decide +kernel

/- binv/_test.py:105-113 -/
example : mk { exposet := some [0, 2, 3] } = mk { intval := some 13 } ∧ (mk { exposet := some [0, 2, 3], length := some 6 }).map (·.string) = .ok "101100".toList ∧
    (mk { exposet := some [] }).map (·.string) = .ok [] ∧ (mk { exposet := some [], length := some 5 }).map (·.string) = .ok "00000".toList ∧
    (mk { exposet := some [1, 3], length := some 6 }).map (·.string) = .ok "010100".toList ∧
    (mk { exposet := some [1, 3], minimalLength := some 3 }).map (·.string) = .ok "0101".toList ∧
    (mk { exposet := some [0, 1], minimalLength := some 3 }).map (·.string) = .ok "110".toList := by decide +kernel

/- binv/_test.py:116-120 -/
example : same (bin "01") (mk { vector := some (.list [0, 1]) }) = .ok true ∧ same (mk { intval := some 0 }) (mk { vector := some (.list []) }) = .ok true ∧
    same (mk { vector := some (.list []) }) (bin "") = .ok true ∧ same (mk { intval := some 13 }) (bin "1011") = .ok true ∧
    same (mk { intval := some 13, length := some 6 }) (bin "101100") = .ok true := by decide +kernel

/- binv/_test.py:123-135 -/
example : (mk { vector := some (.list [1, 0, 1]) }).bind (·.pretty) = .error .prettyLength ∧ (bin "10101").bind (·.pretty) = .error .prettyLength ∧
    (mk { intval := some 10, length := some 4 }).bind (·.pretty) = .ok "0101".toList ∧ (bin "0101").bind (·.pretty) = .ok "0101".toList ∧
    (mk { intval := some 128, length := some 8 }).bind (·.pretty) = .ok "0000 0001".toList ∧ (bin " 00 00 00 01 ").bind (·.pretty) = .ok "0000 0001".toList := by
  decide +kernel

/- binv/_test.py:138-149 -/
example : (bin "0011001").map (·.changes) = .ok 3 ∧ (bin "01").map (·.changes) = .ok 1 ∧ (do (← bin "0101").and (← bin "0011")) = bin "0001" ∧
    (do (← bin "0101").or (← bin "0011")) = bin "0111" ∧ (do (← bin "0101").xor (← bin "0011")) = bin "0110" ∧
    (do (← bin "0").bitwiseSmaller (← bin "1")) = .ok true ∧ (do (← bin "0").bitwiseSmaller (← bin "0")) = .ok false := by decide +kernel

/- binv/_test.py:152-155 -/
example : ∀ s ∈ ["", "0", "1", "01", "0110101", "0000111100001111"], (bin s).map (·.string) = .ok s.toList ∧
    (bin s).bind (·.str) = .ok ("Binv('" ++ s ++ "')").toList := by decide +kernel

/- binv/_test.py:158-177 -/
example : (bin "00000 01010 00011 10000").map (·.requiredLength) = .ok 16 ∧ (bin "0110 0000 0000 1111  1111 0000 0100 0000").map (·.requiredLength) = .ok 26 ∧
    (bin "0110 0000 0000 1111  1111 0000 0100 0000  0000 1111 0000 0000  1010 0101 1010 0000").map (·.requiredLength) = .ok 59 ∧
    (bin "0000 1111 1111 0000  0000 0000 0000 1111").bind (·.str) = .ok "Binv(exposet=[4, 5, 6, 7, 8, 9, 10, 11, 28, 29, 30, 31], length=32)".toList ∧
    ((bin "0000 1111 1111 0000  0000 0000 0000 1111").bind (·.complement)).bind (·.str) =
      .ok "~Binv(exposet=[4, 5, 6, 7, 8, 9, 10, 11, 28, 29, 30, 31], length=32)".toList := by decide +kernel

/- binv/_test.py:180-182 -/
example : ∀ x ∈ [("0101", [[0, 2], [1, 3]]), ("1010", [[0, 2], [1, 3]]), ("01010", [[0, 2, 4], [1, 3]]), ("10101", [[0, 2, 4], [1, 3]])],
    (do (← SP.setPartOfBinv (L := Unit) (← bin x.1)).eq (← SP.newPart x.2)) = Except.ok (ε := Err) true := by decide +kernel

end Verif.BV
