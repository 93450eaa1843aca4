import Verif.Boolf.Model13
import Verif.Boolf.Model26
import Verif.Boolf.Model12
import Verif.Boolf.Model14
import Verif.Boolf.Model16

/-!
# The tests of the equivalence classes, strings and hypersplits of boolf/, replayed on the model

As Verif/Tests/Boolf.lean.
-/

set_option synthInstance.maxSize 2048
set_option synthInstance.maxHeartbeats 400000

namespace Verif.BF
open Verif.Py Verif.BV Verif.SP Verif.SPC Verif.A

/-- `Boolf(s)` and `Boolf(s, atoms)` -/
private noncomputable def b (s : String) (atoms : Option (List Int) := none) : Except Err Boolf := new { tt := some (.str s.toList), av := atoms }
/-- all are equal to the first -/
private def allSame (f : Except Err Boolf) (l : List (Except Err Boolf)) : Bool := l.all fun g => decide ((do return (← f).eq (← g)) = Except.ok true)
private noncomputable def zh (n : Int) : Except Err Boolf := new { zhe := some n }

/- boolf/test/01_misc/boolf_1_test.py:137-157, without `eval` -/
private noncomputable def strs (f : Except Err Boolf) : Except Err (String × String) := do
  return (String.ofList (← (← f).str), String.ofList (← (← (← f).complement).str))
example : strs (b "0101 1010 0011 1000") = .ok ("Boolf('0101 1010 0011 1000')", "Boolf('1010 0101 1100 0111')") ∧
    strs (b "0101 1010 0011 1000" (some [1, 3, 5, 7])) =
      .ok ("Boolf('0101 1010 0011 1000', [1, 3, 5, 7])", "Boolf('1010 0101 1100 0111', [1, 3, 5, 7])") ∧
    strs (b "0101 1010 0011 1000  1111 1010 0000 0000") = .ok ("Boolf(fullspots=[1, 3, 4, 6, 10, 11, 12, 16, 17, 18, 19, 20, 22], arity=5)",
      "~Boolf(fullspots=[1, 3, 4, 6, 10, 11, 12, 16, 17, 18, 19, 20, 22], arity=5)") ∧
    strs (b "0101 1010 0011 1000  1111 1010 0000 0000" (some [1, 3, 5, 7, 9])) =
      .ok ("Boolf(fullspots=[1, 3, 4, 6, 10, 11, 12, 16, 17, 18, 19, 20, 22], atomvals=[1, 3, 5, 7, 9])",
      "~Boolf(fullspots=[1, 3, 4, 6, 10, 11, 12, 16, 17, 18, 19, 20, 22], atomvals=[1, 3, 5, 7, 9])") := by decide +kernel

/- boolf/test/17_zhegalkin/boolf_17_test.py:4-15 -/
example : allSame (zh 321) [b "1110 0001" (some [1, 2, 3])] ∧ (b "1110 0001" (some [1, 2, 3])).bind (·.zhe) = .ok 321 ∧
    allSame (zh 1234) [b "0101 1000 0110 1011"] ∧ (b "0101 1000 0110 1011").bind (·.zhe) = .ok 1234 := by decide +kernel
private noncomputable def f5 : Except Err Boolf := do (← new { fs := some [2, 4, 9, 11, 16, 17, 19, 22, 23, 24, 25, 28, 29, 31], arity := some 5 }).complement
example : allSame (zh 111222333) [f5] ∧ f5.bind (·.zhe) = .ok 111222333 := by decide +kernel
example : allSame (zh 56289841393937) [b "1100 0001 1011 1110" (some [0, 2, 3, 5])] ∧
    (b "1100 0001 1011 1110" (some [0, 2, 3, 5])).bind (·.zhe) = .ok 56289841393937 := by decide +kernel

/- boolf/test/16_skip_deflation/boolf_16_test.py:4-77 -/
private noncomputable def pretty (f : Except Err Boolf) : Except Err (List (Nat × List (List (String × List Nat)))) :=
  (f.bind (·.hypersplitsPretty)).map fun d => d.map fun x => (x.1, x.2.map fun y => y.map fun z => (String.ofList z.1, z.2.insertionSort (· ≤ ·)))
private noncomputable def sapigi : Except Err Boolf :=
  new { fs := some [1, 3, 5, 7, 8, 9, 10, 11, 12, 13, 14, 15], av := some [0, 1, 2, 3], skip := true }
example : sapigi.map (fun f => (f.fullspots, f.atomvals, f.isBlightless)) = .ok ([1, 3, 5, 7, 8, 9, 10, 11, 12, 13, 14, 15], [0, 1, 2, 3], .ok true) := by
  decide +kernel
example : pretty sapigi = .ok [
    (1, [[("−A", [8, 10, 12, 14]), ("+A", [1, 3, 5, 7, 9, 11, 13, 15])], [("−B", [1, 5, 8, 9, 12, 13]), ("+B", [3, 7, 10, 11, 14, 15])],
      [("−C", [1, 3, 8, 9, 10, 11]), ("+C", [5, 7, 12, 13, 14, 15])], [("−D", [1, 3, 5, 7]), ("+D", [8, 9, 10, 11, 12, 13, 14, 15])]]),
    (2, [[("−A −B", [8, 12]), ("+A −B", [1, 5, 9, 13]), ("−A +B", [10, 14]), ("+A +B", [3, 7, 11, 15])],
      [("−A −C", [8, 10]), ("+A −C", [1, 3, 9, 11]), ("−A +C", [12, 14]), ("+A +C", [5, 7, 13, 15])],
      [("−B −C", [1, 8, 9]), ("+B −C", [3, 10, 11]), ("−B +C", [5, 12, 13]), ("+B +C", [7, 14, 15])],
      [("−B −D", [1, 5]), ("+B −D", [3, 7]), ("−B +D", [8, 9, 12, 13]), ("+B +D", [10, 11, 14, 15])],
      [("−C −D", [1, 3]), ("+C −D", [5, 7]), ("−C +D", [8, 9, 10, 11]), ("+C +D", [12, 13, 14, 15])]]),
    (3, [[("−A −B −C", [8]), ("+A −B −C", [1, 9]), ("−A +B −C", [10]), ("+A +B −C", [3, 11]), ("−A −B +C", [12]), ("+A −B +C", [5, 13]),
      ("−A +B +C", [14]), ("+A +B +C", [7, 15])],
      [("−B −C −D", [1]), ("+B −C −D", [3]), ("−B +C −D", [5]), ("+B +C −D", [7]), ("−B −C +D", [8, 9]), ("+B −C +D", [10, 11]),
      ("−B +C +D", [12, 13]), ("+B +C +D", [14, 15])]])] := by decide +kernel
example : pretty (new { tt := some (.str "1111 1111".toList), skip := true }) = .ok [
    (1, [[("−A", [0, 2, 4, 6]), ("+A", [1, 3, 5, 7])], [("−B", [0, 1, 4, 5]), ("+B", [2, 3, 6, 7])], [("−C", [0, 1, 2, 3]), ("+C", [4, 5, 6, 7])]]),
    (2, [[("−A −B", [0, 4]), ("+A −B", [1, 5]), ("−A +B", [2, 6]), ("+A +B", [3, 7])], [("−A −C", [0, 2]), ("+A −C", [1, 3]), ("−A +C", [4, 6]), ("+A +C", [5, 7])],
      [("−B −C", [0, 1]), ("+B −C", [2, 3]), ("−B +C", [4, 5]), ("+B +C", [6, 7])]]),
    (3, [[("−A −B −C", [0]), ("+A −B −C", [1]), ("−A +B −C", [2]), ("+A +B −C", [3]), ("−A −B +C", [4]), ("+A −B +C", [5]), ("−A +B +C", [6]),
      ("+A +B +C", [7])]])] := by decide +kernel
example : pretty (new { tt := some (.str "0000 0000".toList), skip := true }) =
      .ok [(1, [[("−A", []), ("+A", [])], [("−B", []), ("+B", [])], [("−C", []), ("+C", [])]])] ∧
    (new { tt := some (.str "0011 0011".toList), skip := true }).map (fun f => (f.fullspots, f.atomvals, f.splits)) =
      .ok ([2, 3, 6, 7], [0, 1, 2], .ok [([3, 7], [2, 6]), ([2, 3, 6, 7], []), ([6, 7], [2, 3])]) := by decide +kernel

/-- The dictionary `block_labels`: `pairs` are the block and its function, given by truth table and atoms.  Elements of a product domain are the
indices `code` of their tuples. -/
private noncomputable def labelled (p : Except Err EcPart) (pairs : List (List Int × String × Option (List Int))) : Bool :=
  match p with
  | .error _ => false
  | .ok p => decide (p.part.blockLabels.length = pairs.length) && pairs.all fun x =>
      match p.part.blockLabels.find? (fun y => y.1 == x.1) with
      | none => false
      | some y => allSame (.ok y.2) [b x.2.1 x.2.2]

/- boolf/test/02_val_apply_ec/vinona/vinona_ec_test.py:52-77 -/
example : labelled ((b "1110").bind (·.ecFamily)) [([0], "1110", none), ([1], "1101", none), ([2], "1011", none), ([3], "0111", none)] := by decide +kernel
example : labelled ((b "1110").bind (·.ecClan 3 none false)) [([0, 1], "1110", none), ([2, 3], "1101", none), ([4, 5], "1011", none), ([6, 7], "0111", none)] := by
  decide +kernel
/- boolf/test/02_val_apply_ec/vinona/vinona_ec_test.py:91-145; the pair `(m, n)` is `6 * m + n` and the triple `(k, m, n)` is `6 * k + 3 * m + n` -/
example : labelled ((b "1110").bind (·.ecClan 3 (some 3) true)) [
    ([0, 1, 24, 25], "1110", none), ([6, 7, 30, 31], "1101", none), ([12, 13, 36, 37], "1011", none), ([18, 19, 42, 43], "0111", none),
    ([2, 3, 14, 15], "1110", some [0, 2]), ([8, 9, 20, 21], "1101", some [0, 2]), ([26, 27, 38, 39], "1011", some [0, 2]), ([32, 33, 44, 45], "0111", some [0, 2]),
    ([4, 5, 10, 11], "1110", some [1, 2]), ([16, 17, 22, 23], "1101", some [1, 2]), ([28, 29, 34, 35], "1011", some [1, 2]),
    ([40, 41, 46, 47], "0111", some [1, 2])] := by decide +kernel
example : labelled ((b "1110").bind (·.ecClan 3 (some 3) false)) ([(none, 0), (some [0, 2], 1), (some [1, 2], 2)].flatMap fun a =>
    [([a.2, 3 + a.2], "1110", a.1), ([6 + a.2, 15 + a.2], "1101", a.1), ([9 + a.2, 12 + a.2], "1011", a.1), ([18 + a.2, 21 + a.2], "0111", a.1)]) := by
  decide +kernel
private noncomputable def byPair (m n : Int) : Except Err Boolf := do (← b "1110").applySigperm (.sigperm (← SG.new { pair := some (m, n) }))
example : allSame (b "1011" (some [0, 2])) [byPair 4 2, byPair 6 2, byPair 4 3, byPair 6 3, (b "1110").bind (·.apply [0, -3])] := by decide +kernel

/- boolf/test/02_val_apply_ec/tatami_fusuma/tatami_fusuma_test.py:6-58 -/
private noncomputable def tatami : Except Err Boolf := b "1111 1000"
private noncomputable def fusuma : Except Err Boolf := b "1111 0100"
example : labelled (tatami.bind (·.ecFaction)) [([0, 1], "1111 1000", none), ([2, 3], "1110 1100", none), ([4, 5], "1110 1010", none)] := by decide +kernel
example : labelled (fusuma.bind (·.ecFaction)) [([0], "1111 0100", none), ([1], "1111 0010", none), ([2], "1101 1100", none), ([3], "1100 1110", none),
    ([4], "1011 1010", none), ([5], "1010 1110", none)] := by decide +kernel
example : labelled (tatami.bind (·.ecFamily)) [([0], "1111 1000", none), ([1], "1111 0100", none), ([2], "1111 0010", none), ([3], "1111 0001", none),
    ([4], "1000 1111", none), ([5], "0100 1111", none), ([6], "0010 1111", none), ([7], "0001 1111", none)] := by decide +kernel
example : labelled (fusuma.bind (·.ecFamily)) [([0], "1111 0100", none), ([1], "1111 1000", none), ([2], "1111 0001", none), ([3], "1111 0010", none),
    ([4], "0100 1111", none), ([5], "1000 1111", none), ([6], "0001 1111", none), ([7], "0010 1111", none)] := by decide +kernel
example : allSame tatami [fusuma.bind (·.applySigperm (.list [-1, 1, 2]))] ∧
    allSame (b "1000 1111") [fusuma.bind (·.applySigperm (.list [-1, 1, -3]))] := by decide +kernel

/- boolf/test/02_val_apply_ec/barita_filtrates/gepofu_ec_test.py:6-25 -/
example : labelled ((b "1110 1010 1100 0000").bind (·.ecFamily)) [
    ([0], "1110 1010 1100 0000", none), ([1], "1101 0101 1100 0000", none), ([2], "1011 1010 0011 0000", none), ([3], "0111 0101 0011 0000", none),
    ([4], "1010 1110 0000 1100", none), ([5], "0101 1101 0000 1100", none), ([6], "1010 1011 0000 0011", none), ([7], "0101 0111 0000 0011", none),
    ([8], "1100 0000 1110 1010", none), ([9], "1100 0000 1101 0101", none), ([10], "0011 0000 1011 1010", none), ([11], "0011 0000 0111 0101", none),
    ([12], "0000 1100 1010 1110", none), ([13], "0000 1100 0101 1101", none), ([14], "0000 0011 1010 1011", none), ([15], "0000 0011 0101 0111", none)] := by
  decide +kernel

/- boolf/test/02_val_apply_ec/menose/ec_variables.py:4-27; the pair `(m, n)` is `6 * m + n` -/
example : labelled ((b "0110 0000").bind (·.ecFamily)) [([1, 2], "1001 0000", none), ([0, 3], "0110 0000", none), ([5, 6], "0000 1001", none),
    ([4, 7], "0000 0110", none)] := by decide +kernel
example : labelled ((b "0110 0000").bind (·.ecClan 3 none false)) [([6, 7, 12, 13], "1001 0000", none), ([0, 1, 18, 19], "0110 0000", none),
    ([8, 9, 26, 27], "1000 0100", none), ([16, 17, 28, 29], "1000 0010", none), ([2, 3, 32, 33], "0100 1000", none), ([22, 23, 34, 35], "0100 0001", none),
    ([30, 31, 36, 37], "0000 1001", none), ([20, 21, 38, 39], "0010 0001", none), ([4, 5, 40, 41], "0010 1000", none), ([24, 25, 42, 43], "0000 0110", none),
    ([14, 15, 44, 45], "0001 0010", none), ([10, 11, 46, 47], "0001 0100", none)] := by decide +kernel

/- boolf/methods/_ec/ec_faction/tests/faction_symmetric_test.py:10-59; the pair `(m, n)` is `4 * m + n` -/
private noncomputable def symm : Except Err Boolf := b "0110 1001"
example : labelled (symm.bind (·.ecFaction)) [([0, 1, 2, 3, 4, 5], "0110 1001", none)] := by decide +kernel
example : labelled (symm.bind (·.ecFaction (some 4))) [([0, 4, 8, 12, 16, 20], "0110 1001", none), ([1, 5, 9, 13, 17, 21], "0110 1001", some [0, 1, 3]),
    ([2, 6, 10, 14, 18, 22], "0110 1001", some [0, 2, 3]), ([3, 7, 11, 15, 19, 23], "0110 1001", some [1, 2, 3])] := by decide +kernel
example : labelled (symm.bind (·.ecFaction (some 4) true)) [([0, 1, 2, 3, 4, 5], "0110 1001", none), ([6, 7, 8, 9, 10, 11], "0110 1001", some [0, 1, 3]),
    ([12, 13, 14, 15, 16, 17], "0110 1001", some [0, 2, 3]), ([18, 19, 20, 21, 22, 23], "0110 1001", some [1, 2, 3])] := by decide +kernel

/- boolf/methods/_ec/ec_faction/tests/faction_potero_test.py:6-70; the pair `(m, n)` is `4 * m + n` -/
private noncomputable def potero : Except Err Boolf := b "1101 0001"
example : labelled (potero.bind (·.ecFaction)) [([0], "1101 0001", none), ([1], "1011 0001", none), ([2], "1100 0101", none), ([3], "1000 1101", none),
    ([4], "1010 0011", none), ([5], "1000 1011", none)] := by decide +kernel
example : labelled (potero.bind (·.ecFaction (some 4))) (
    [(none, 0), (some [0, 1, 3], 1), (some [0, 2, 3], 2), (some [1, 2, 3], 3)].flatMap fun a =>
      [([a.2], "1101 0001", a.1), ([4 + a.2], "1011 0001", a.1), ([8 + a.2], "1100 0101", a.1), ([12 + a.2], "1010 0011", a.1),
       ([16 + a.2], "1000 1101", a.1), ([20 + a.2], "1000 1011", a.1)]) := by decide +kernel
/- boolf/methods/_ec/ec_faction/tests/faction_potero_test.py:72-100 -/
example : labelled (potero.bind (·.ecFaction (some 4) true)) (
    [(none, 0), (some [0, 1, 3], 6), (some [0, 2, 3], 12), (some [1, 2, 3], 18)].flatMap fun a =>
      [([a.2], "1101 0001", a.1), ([1 + a.2], "1011 0001", a.1), ([2 + a.2], "1100 0101", a.1), ([3 + a.2], "1000 1101", a.1),
       ([4 + a.2], "1010 0011", a.1), ([5 + a.2], "1000 1011", a.1)]) := by decide +kernel

/-- python dictionaries are equal: the order does not count -/
private def sameDict {α β : Type} [DecidableEq α] [DecidableEq β] (d e : List (α × β)) : Bool := decide (d.length = e.length) && e.all fun x => d.contains x
private def isDict {α β : Type} [DecidableEq α] [DecidableEq β] (d : Except Err (List (α × β))) (e : List (α × β)) : Bool :=
  match d with
  | .ok d => sameDict d e
  | .error _ => false
private noncomputable def takate : Except Err Boolf := b "0111 1000"

/- boolf/methods/_ec/ec_family_splinters/_test.py:5-41 -/
example : isDict ((b "1110").bind (·.ecFamilySplinters)) [(9, [9]), (11, [11, 13]), (14, [14])] := by decide +kernel
example : isDict (takate.bind (·.ecFamilySplinters)) [(24, [24]), (25, [25]), (26, [26, 28]), (27, [27, 29]), (30, [30]), (31, [31])] := by decide +kernel
example : ∀ z ∈ [178, 211], isDict ((zh z).bind (·.ecFamilySplinters))
    [(146, [146]), (178, [178]), (155, [155, 211]), (185, [185, 227]), (222, [222]), (237, [237])] := by decide +kernel
example : ∀ z ∈ [26817, 31371], isDict ((zh z).bind (·.ecFamilySplinters))
    [(26817, [26817]), (26793, [26793, 31873]), (27074, [27074]), (27051, [27051, 32131]), (28323, [28323, 28577, 31371, 31625]), (28365, [28365, 31473]),
     (28622, [28622, 31730]), (31997, [31997]), (32254, [32254])] := by decide +kernel

/- boolf/methods/_ec/ec_clan_factions/_test.py:8-43 without 29-36 -/
example : isDict ((b "1110").bind (·.ecClanFactions (some 2))) [(9, [9]), (11, [11, 13]), (14, [14])] ∧
    isDict ((b "1110").bind (·.ecClanFactions (some 3))) [(9, [9, 33, 65]), (11, [11, 13, 35, 49, 69, 81]), (14, [14, 50, 84])] := by decide +kernel
example : isDict (takate.bind (·.ecClanFactions (some 3))) [(24, [24, 36, 66]), (25, [25, 37, 67]), (26, [26, 28, 38, 52, 70, 82]),
    (27, [27, 29, 39, 53, 71, 83]), (30, [30, 54, 86]), (31, [31, 55, 87])] := by decide +kernel
example : (b "1110").bind (·.ecClanFactions (some 1)) = .error .argTooSmall ∧ takate.bind (·.ecClanFactions (some 2)) = .error .argTooSmall := by decide +kernel

/- boolf/methods/_ec/ec_clan_partitioned/_test.py:4-50 -/
private noncomputable def takatePart : Except Err Partitioned := takate.bind fun f => f.ecClanPartitioned id id id
private noncomputable def takateOk : Bool := match takatePart with
  | .error _ => false
  | .ok p => p.factionReps == [24, 25, 26, 27, 30, 31] && p.familyReps == [24, 36, 66] &&
    sameDict p.factionDict [(24, [24, 36, 66]), (25, [25, 37, 67]), (26, [26, 28, 38, 52, 70, 82]),
    (27, [27, 29, 39, 53, 71, 83]), (30, [30, 54, 86]), (31, [31, 55, 87])] &&
    sameDict p.familyDict [(24, [24, 25, 26, 27, 28, 29, 30, 31]), (36, [36, 37, 38, 39, 52, 53, 54, 55]),
    (66, [66, 67, 70, 71, 82, 83, 86, 87])] &&
    sameDict p.splinterDict [((24, 24), [24]), ((24, 36), [36]), ((24, 66), [66]), ((25, 24), [25]), ((25, 36), [37]), ((25, 66), [67]),
    ((26, 24), [26, 28]), ((26, 36), [38, 52]), ((26, 66), [70, 82]), ((27, 24), [27, 29]), ((27, 36), [39, 53]), ((27, 66), [71, 83]),
    ((30, 24), [30]), ((30, 36), [54]), ((30, 66), [86]), ((31, 24), [31]), ((31, 36), [55]), ((31, 66), [87])]
example : takateOk := by decide +kernel

/- boolf/methods/_ec/ec_clan_matrix/_test.py:4-75 -/
private noncomputable def berusaMat : Except Err ClanMatrix := (b "1101 0110").bind fun f => f.ecClanMatrix id id id
private noncomputable def berusaOk : Bool := match berusaMat with
  | .error _ => false
  | .ok M => M.factionReps == [151, 158, 189, 233] && M.familyReps == [151] && M.lcm == 3 &&
    sameDict M.factionDict [(151, [151]), (158, [158, 182, 214]), (189, [189, 219, 231]), (233, [233])] &&
    sameDict M.familyDict [(151, [151, 158, 182, 189, 214, 219, 231, 233])] &&
    sameDict M.splinterDict [((151, 151), [151]), ((158, 151), [158, 182, 214]), ((189, 151), [231, 219, 189]), ((233, 151), [233])] &&
    sameDict M.sizes [(151, 1), (158, 3), (189, 3), (233, 1)] &&
    sameDict M.weights [(151, some 5), (158, some 5), (189, some 6), (233, some 5)] &&
    sameDict M.factionKeynegs [(151, [6]), (158, [2, 4, 7]), (189, [0, 3, 5]), (233, [1])] &&
    sameDict M.familyPerms [(151, [0, 1, 2, 3, 4, 5])] &&
    sameDict M.zheKeynegs [(151, [6]), (158, [2, 4, 7]), (182, [2, 4, 7]), (189, [0, 3, 5]), (214, [2, 4, 7]), (219, [0, 3, 5]),
      (231, [0, 3, 5]), (233, [1])] &&
    sameDict M.zheValnegs [(151, [3, 5, 6]), (158, [1, 2, 7]), (182, [1, 4, 7]), (189, [0, 3, 5]), (214, [2, 4, 7]), (219, [0, 3, 6]),
      (231, [0, 5, 6]), (233, [1, 2, 4])] &&
    sameDict M.zheTriples [
    (151, [(6, 0, 6), (6, 1, 5), (6, 2, 6), (6, 3, 3), (6, 4, 5), (6, 5, 3)]), (158, [(2, 0, 2), (2, 1, 1), (4, 2, 2), (4, 4, 1), (7, 3, 7), (7, 5, 7)]),
    (182, [(2, 2, 4), (2, 3, 1), (4, 0, 4), (4, 5, 1), (7, 1, 7), (7, 4, 7)]), (189, [(0, 0, 0), (0, 2, 0), (3, 1, 3), (3, 3, 5), (5, 4, 3), (5, 5, 5)]),
    (214, [(2, 4, 4), (2, 5, 2), (4, 1, 4), (4, 3, 2), (7, 0, 7), (7, 2, 7)]), (219, [(0, 1, 0), (0, 4, 0), (3, 0, 3), (3, 5, 6), (5, 2, 3), (5, 3, 6)]),
    (231, [(0, 3, 0), (0, 5, 0), (3, 2, 5), (3, 4, 6), (5, 0, 5), (5, 1, 6)]), (233, [(1, 0, 1), (1, 1, 2), (1, 2, 1), (1, 3, 4), (1, 4, 2), (1, 5, 4)])]
example : berusaOk := by decide +kernel

/- boolf/test/02_val_apply_ec/kusaga_damela/vals_test.py:10-86, without the calls of `val` -/
private noncomputable def valsAre (f : Except Err Boolf) (l : List (List Int)) (s : String) : Bool :=
  l.all fun p => decide (f.bind (·.vals p) = BV.mk { vector := some (.str s.toList) })
private noncomputable def kusaga : Except Err Boolf := b "1110 1000 0100 0010"
private noncomputable def damelaSpread : Except Err Boolf := b "1110 1000 0010 1011" (some [10, 20, 30, 40])
private noncomputable def damela : Except Err Boolf := b "1110 1000 0010 1011"
example : valsAre kusaga [[0, 1, 2, 3], [0, 2, 1, 3]] "1110 1000 0100 0010" ∧ valsAre kusaga [[-1, -2, 2, 3], [-1, 2, -2, 3]] "0111 0001 0010 0100" ∧
    valsAre kusaga [[-3, 1, -4, 0], [-3, -4, 1, 0]] "0000 1001 1100 1010" := by decide +kernel
example : ∀ f ∈ [damela, damelaSpread], valsAre f [[0, 1, 2, 3], [0, 2, 1, 3], [0, -2, -3, -4], [0, -3, -2, -4]] "1110 1000 0010 1011" ∧
    valsAre f [[3, -1, -2, 2], [3, -2, -1, 2], [3, 0, 1, -3], [3, 1, 0, -3]] "0111 1110 0001 1000" := by decide +kernel
example : damelaSpread.bind (·.vals []) = .error .sarityMismatch ∧ damelaSpread.bind (·.vals [10, 11, 12, 13]) = .error .unexpectedArgument ∧
    damelaSpread.bind (·.vals [0, -2, 2, -6]) = .error .unexpectedArgument := by decide +kernel

/- boolf/test/02_val_apply_ec/dagoro/dagoro_conversion_test.py:4-12 -/
private noncomputable def dagoro : Except Err Boolf := new { fs := some [1, 3, 4, 5, 7, 10, 14], arity := some 4 }
private noncomputable def darimi : Except Err Boolf := b "1111 0100 0000 0011" (some [1, 2, 3, 4])
example : allSame darimi [dagoro.bind (·.apply [-4, 2, 1, 4]), darimi.bind (·.apply [1, 2, 3, 4])] ∧
    allSame (dagoro.bind (·.apply [-3, 1, 0, 3])) [darimi.bind (·.apply [0, 1, 2, 3])] ∧ allSame dagoro [darimi.bind (·.apply [2, 1, -1, 3])] ∧
    valsAre dagoro [[-3, 1, 0, 3]] "1111 0100 0000 0011" ∧ valsAre darimi [[2, 1, -1, 3]] "0101 1101 0010 0010" := by decide +kernel

end Verif.BF
