import Verif.Py.Basic
import Mathlib.Data.List.Lex
import Mathlib.Algebra.Ring.Int.Defs
import Mathlib.Algebra.GroupWithZero.Divisibility
import Mathlib.Algebra.GCDMonoid.Nat

/-!
# Model of a/sort_together, a/sort_rows_together, a/sort_cols_together and a/multi_lcm
-/

namespace Verif.A
open Verif.Py

section
variable {α : Type} [LinearOrder α]

/-- `zip(*lists)` (python) for lists of the same length -/
def zipRows : List (List α) → List (List α)
  | [] => []
  | l :: ls => (List.range l.length).map fun i => (l :: ls).filterMap (·[i]?)

/-- a/sort_together/__init__.py:6-15, for lists with entries of the same ordered type.  (Tuples are compared lexicographically; equal ones can not be told apart.) -/
def sortTogetherAll : List (List α) → Except Err (List (List α))
  | [] => .error .indexError
  | first :: rest =>
    if (first :: rest).all (fun arg => arg.length = first.length) then .ok (zipRows ((zipRows (first :: rest)).insertionSort (· ≤ ·)))
    else .error .lengthMismatch

/-- a 2-dimensional numpy array: its rows, and `shape[1]` -/
structure NpMat (α : Type) where
  rows : List (List α)
  width : Nat
deriving DecidableEq

/-- all rows have the same length -/
def NpMat.Wf (m : NpMat α) : Prop := ∀ r ∈ m.rows, r.length = m.width

/-- `m.T` (numpy) -/
def NpMat.transpose (m : NpMat α) : NpMat α := ⟨(List.range m.width).map fun j => m.rows.filterMap (·[j]?), m.rows.length⟩

/-- `np.fliplr(m)` (numpy) -/
def NpMat.fliplr (m : NpMat α) : NpMat α := ⟨m.rows.map List.reverse, m.width⟩

/-- `np.array(rows)` (numpy) for at least one row -/
def npArray (rows : List (List α)) : NpMat α := ⟨rows, (rows.headD []).length⟩

/-- a/sort_rows_together/__init__.py:7-25.  (For matrices without rows `sort_together` returns no list.) -/
def sortRowsTogether : List (NpMat α) → Except Err (List (NpMat α))
  | [] => .error .indexError
  | first :: rest =>
    if (first :: rest).all (fun arg => arg.rows.length = first.rows.length) then do
      let sortedListsOfRows ← sortTogetherAll ((first :: rest).map NpMat.rows)
      return sortedListsOfRows.map npArray
    else .error .argMismatch

/-- a/sort_cols_together/__init__.py:7-28 -/
def sortColsTogether (smallOnTop : Bool) : List (NpMat α) → Except Err (List (NpMat α))
  | [] => .error .indexError
  | first :: rest =>
    if (first :: rest).all (fun arg => arg.width = first.width) then do
      let turnedMatrices := (first :: rest).map fun arg => if smallOnTop then arg.transpose.fliplr else arg.transpose
      let sortedTurnedMatrices ← sortRowsTogether turnedMatrices
      return sortedTurnedMatrices.map fun matrix => if smallOnTop then matrix.fliplr.transpose else matrix.transpose
    else .error .argMismatch

end

/-- the loop of `reduce` in a/multi_lcm/__init__.py:11 for the remaining integers -/
def lcmLoop (a : Int) : List Int → Except Err Int
  | [] => .ok a
  | b :: rest => if (Int.gcd a b : Int) = 0 then .error .zeroDivision else lcmLoop ((a * b).fdiv (Int.gcd a b)) rest

/-- a/multi_lcm/__init__.py:10-11 -/
def multiLcm : List Int → Except Err Int
  | [] => .error .typeError
  | a :: rest => lcmLoop a rest

/-! ## proofs -/

section
variable {α : Type} [LinearOrder α]

/-- the tuple of the entries at place `i` -/
def entriesAt (args : List (List α)) (i : Nat) : List α := args.filterMap (·[i]?)

omit [LinearOrder α] in
theorem entriesAt_getElem {args : List (List α)} {i : Nat} (h : ∀ a ∈ args, i < a.length) (k : Nat) : (entriesAt args i)[k]? = args[k]?.bind (·[i]?) := by
  induction args generalizing k with
  | nil => simp [entriesAt]
  | cons a args ih =>
    have ha : i < a.length := h a (by simp)
    have hr := ih fun b hb => h b (by simp [hb])
    unfold entriesAt at hr ⊢
    rw [List.filterMap_cons_some (f := fun x : List α => x[i]?) (List.getElem?_eq_getElem ha)]
    cases k with
    | zero => simp [List.getElem?_eq_getElem ha]
    | succ k => simpa using hr k

omit [LinearOrder α] in
theorem entriesAt_length {args : List (List α)} {i : Nat} (h : ∀ a ∈ args, i < a.length) : (entriesAt args i).length = args.length := by
  induction args with
  | nil => rfl
  | cons b l ih =>
    have hr := ih fun c hc => h c (by simp [hc])
    unfold entriesAt at hr ⊢
    rw [List.filterMap_cons_some (f := fun x : List α => x[i]?) (List.getElem?_eq_getElem (h b (by simp)))]
    simp [hr]

omit [LinearOrder α] in
theorem zipRows_eq {args : List (List α)} {h : Nat} (hne : args ≠ []) (hl : ∀ a ∈ args, a.length = h) : zipRows args = (List.range h).map (entriesAt args) := by
  cases args with
  | nil => exact absurd rfl hne
  | cons a rest => rw [zipRows, hl a (by simp)]; rfl

/-- choosing the entries of each list in a new order -/
def chosen (s : List Nat) (a : List α) : List α := s.filterMap (a[·]?)

omit [LinearOrder α] in
theorem entriesAt_map {args : List (List α)} (s : List Nat) (k : Nat) (a : List α) (hk : args[k]? = some a)
    (hl : ∀ b ∈ args, ∀ i ∈ s, i < b.length) : entriesAt (s.map (entriesAt args)) k = chosen s a := by
  unfold entriesAt chosen
  rw [List.filterMap_map]
  refine List.filterMap_congr fun i hi => ?_
  have := entriesAt_getElem (args := args) (i := i) (fun b hb => hl b hb i hi) k
  rw [hk] at this
  exact this

/-- **C110.** `sort_together` rearranges all its lists in the same way, so that the tuples of entries at the same place ascend lexicographically. -/
theorem C110_sort_together (args : List (List α)) (h : Nat) (hne : args ≠ []) (hl : ∀ a ∈ args, a.length = h) (hpos : 0 < h) :
    ∃ s : List Nat, s.Perm (List.range h) ∧ sortTogetherAll args = .ok (args.map fun a => s.filterMap (a[·]?)) ∧
      s.Pairwise fun i j => args.filterMap (·[i]?) ≤ args.filterMap (·[j]?) := by
  refine ⟨(List.range h).insertionSort fun i j => entriesAt args i ≤ entriesAt args j, List.perm_insertionSort _ _, ?_, ?_⟩
  · have hs := List.perm_insertionSort (fun i j => entriesAt args i ≤ entriesAt args j) (List.range h)
    have hm := List.map_insertionSort (r := fun i j => entriesAt args i ≤ entriesAt args j) (s := (· ≤ ·)) (f := entriesAt args) (l := List.range h)
      (fun _ _ _ _ => Iff.rfl)
    have hall : (args.all fun arg => arg.length = h) = true := by
      rw [List.all_eq_true]
      exact fun a ha => by simpa using hl a ha
    have key : sortTogetherAll args = .ok (zipRows ((zipRows args).insertionSort (· ≤ ·))) := by
      cases args with
      | nil => exact absurd rfl hne
      | cons a rest =>
        rw [sortTogetherAll, hl a (by simp), if_pos hall]
    rw [key, zipRows_eq hne hl, ← hm]
    congr 1
    generalize (List.range h).insertionSort (fun i j => entriesAt args i ≤ entriesAt args j) = s at hs ⊢
    have hlt : ∀ b ∈ args, ∀ i ∈ s, i < b.length := fun b hb i hi => by
      rw [hl b hb]
      exact List.mem_range.1 (hs.mem_iff.1 hi)
    have hsne : s ≠ [] := by
      intro h0
      rw [h0] at hs
      have := hs.length_eq
      simp at this
      omega
    rw [zipRows_eq (h := args.length) (by simpa using hsne) (by
      intro a ha
      obtain ⟨i, hi, rfl⟩ := List.mem_map.1 ha
      exact entriesAt_length fun b hb => hlt b hb i hi)]
    apply List.ext_getElem?
    intro k
    rw [List.getElem?_map, List.getElem?_map]
    by_cases hk : k < args.length
    · rw [List.getElem?_range hk, List.getElem?_eq_getElem hk]
      exact congrArg some (entriesAt_map s k _ (List.getElem?_eq_getElem hk) hlt)
    · rw [List.getElem?_eq_none (by simpa using hk), List.getElem?_eq_none (by simpa using hk)]
      rfl
  · have : Std.Total (fun i j => entriesAt args i ≤ entriesAt args j) := ⟨fun i j => le_total _ _⟩
    have : IsTrans Nat (fun i j => entriesAt args i ≤ entriesAt args j) := ⟨fun _ _ _ => le_trans⟩
    exact List.pairwise_insertionSort _ _

/-- Three lists, of which the first two have equal entries at the places 0 and 2. -/
example : sortTogetherAll [[2, 3, 2, 3, 3], [7, 7, 7, 9, 8], [33, 33, 22, 11, 22]] = .ok [[2, 2, 3, 3, 3], [7, 7, 7, 8, 9], [22, 33, 33, 22, 11]] := by decide +kernel

/-- **C110.** No list is an `IndexError`, different lengths are rejected, and for empty lists nothing is returned (not even empty lists). -/
theorem C110_errors : sortTogetherAll ([] : List (List α)) = .error .indexError ∧
    (∀ (first : List α) (rest : List (List α)), (∃ a ∈ rest, a.length ≠ first.length) → sortTogetherAll (first :: rest) = .error .lengthMismatch) ∧
    ∀ args : List (List α), args ≠ [] → (∀ a ∈ args, a = []) → sortTogetherAll args = .ok [] := by
  refine ⟨rfl, fun first rest ⟨a, ha, hl⟩ => ?_, fun args hne h0 => ?_⟩
  · rw [sortTogetherAll, if_neg]
    rw [List.all_eq_true]
    intro h
    exact hl (by simpa using h a (by simp [ha]))
  · cases args with
    | nil => exact absurd rfl hne
    | cons a rest =>
      obtain rfl := h0 a (by simp)
      rw [sortTogetherAll, if_pos]
      · rfl
      · rw [List.all_eq_true]
        intro b hb
        simp [h0 b hb]

omit [LinearOrder α] in
theorem chosen_length (s : List Nat) (a : List α) (h : ∀ i ∈ s, i < a.length) : (chosen s a).length = s.length := by
  induction s with
  | nil => rfl
  | cons i s ih =>
    have hr := ih fun j hj => h j (by simp [hj])
    unfold chosen at hr ⊢
    rw [List.filterMap_cons_some (f := fun i : Nat => a[i]?) (List.getElem?_eq_getElem (h i (by simp)))]
    simp [hr]

omit [LinearOrder α] in
theorem chosen_mem {s : List Nat} {a : List α} {x : α} (h : x ∈ chosen s a) : x ∈ a := by
  obtain ⟨i, _, hi⟩ := List.mem_filterMap.1 h
  exact List.mem_of_getElem? hi

/-- **C111.** `sort_rows_together` rearranges the rows of all its matrices in the same way, so that the tuples of rows at the same place ascend lexicographically. -/
theorem C111_sort_rows_together (args : List (NpMat α)) (h : Nat) (hne : args ≠ []) (hwf : ∀ m ∈ args, m.Wf) (hl : ∀ m ∈ args, m.rows.length = h) (hpos : 0 < h) :
    ∃ s : List Nat, s.Perm (List.range h) ∧ sortRowsTogether args = .ok (args.map fun m => ⟨s.filterMap (m.rows[·]?), m.width⟩) ∧
      s.Pairwise fun i j => args.filterMap (·.rows[i]?) ≤ args.filterMap (·.rows[j]?) := by
  obtain ⟨s, s1, s2, s3⟩ := C110_sort_together (args.map NpMat.rows) h (by simpa using hne) (by simpa using hl) hpos
  refine ⟨s, s1, ?_, ?_⟩
  · have key : sortRowsTogether args = (do return (← sortTogetherAll (args.map NpMat.rows)).map npArray) := by
      cases args with
      | nil => exact absurd rfl hne
      | cons m rest =>
        rw [sortRowsTogether, if_pos]
        rw [List.all_eq_true]
        intro a ha
        simp [hl a ha, hl m]
    rw [key, s2]
    show Except.ok _ = Except.ok _
    rw [List.map_map, List.map_map]
    congr 1
    refine List.map_congr_left fun m hm => ?_
    show npArray (chosen s m.rows) = ⟨chosen s m.rows, m.width⟩
    unfold npArray
    congr 1
    have hlen : (chosen s m.rows).length = h := by
      rw [chosen_length s m.rows fun i hi => by rw [hl m hm]; exact List.mem_range.1 (s1.mem_iff.1 hi), s1.length_eq, List.length_range]
    cases hc : chosen s m.rows with
    | nil => rw [hc] at hlen; simp at hlen; omega
    | cons r rs => exact hwf m hm r (chosen_mem (by rw [hc]; simp))
  · simpa only [List.filterMap_map, Function.comp_def] using s3

/-- **C111.** `sort_cols_together` rearranges the columns of all its matrices in the same way, so that the tuples of columns at the same place ascend
lexicographically; with `small_on_top` the columns are read upwards. -/
theorem C111_sort_cols_together (small : Bool) (args : List (NpMat α)) (w : Nat) (hne : args ≠ []) (hwf : ∀ m ∈ args, m.Wf) (hl : ∀ m ∈ args, m.width = w)
    (hpos : 0 < w) :
    ∃ s : List Nat, s.Perm (List.range w) ∧ sortColsTogether small args = .ok (args.map fun m => ⟨m.rows.map fun r => s.filterMap (r[·]?), m.width⟩) ∧
      s.Pairwise fun i j => (args.map fun m => if small then (m.rows.filterMap (·[i]?)).reverse else m.rows.filterMap (·[i]?)) ≤
        (args.map fun m => if small then (m.rows.filterMap (·[j]?)).reverse else m.rows.filterMap (·[j]?)) := by
  set turn : NpMat α → NpMat α := fun arg => if small then arg.transpose.fliplr else arg.transpose with hturn
  have hcol : ∀ m : NpMat α, (turn m).rows = (List.range m.width).map fun j => if small then (entriesAt m.rows j).reverse else entriesAt m.rows j := by
    intro m
    rw [hturn]
    cases small
    · rfl
    · show List.map List.reverse (List.map _ _) = _
      rw [List.map_map]
      rfl
  have hw : ∀ m : NpMat α, (turn m).width = m.rows.length := by
    intro m
    rw [hturn]
    cases small <;> rfl
  obtain ⟨s, s1, s2, s3⟩ := C111_sort_rows_together (args.map turn) w (by simpa using hne) (by
    intro t ht
    obtain ⟨m, hm, rfl⟩ := List.mem_map.1 ht
    intro r hr
    rw [hcol] at hr
    obtain ⟨j, hj, rfl⟩ := List.mem_map.1 hr
    rw [hw]
    have := entriesAt_length (args := m.rows) (i := j) fun a ha => by rw [hwf m hm a ha]; exact List.mem_range.1 hj
    cases small <;> simpa using this) (by
    intro t ht
    obtain ⟨m, hm, rfl⟩ := List.mem_map.1 ht
    rw [hcol]
    simp [hl m hm]) hpos
  have hlt : ∀ i ∈ s, i < w := fun i hi => List.mem_range.1 (s1.mem_iff.1 hi)
  refine ⟨s, s1, ?_, ?_⟩
  · have key : sortColsTogether small args = (do return (← sortRowsTogether (args.map turn)).map fun matrix => if small then matrix.fliplr.transpose else matrix.transpose) := by
      cases args with
      | nil => exact absurd rfl hne
      | cons m rest =>
        rw [sortColsTogether, if_pos]
        rw [List.all_eq_true]
        intro a ha
        simp [hl a ha, hl m]
    rw [key, s2]
    show Except.ok _ = Except.ok _
    rw [List.map_map, List.map_map]
    congr 1
    refine List.map_congr_left fun m hm => ?_
    simp only [Function.comp_def]
    have hrows : (s.filterMap fun i => (turn m).rows[i]?) = s.map fun j => if small then (entriesAt m.rows j).reverse else entriesAt m.rows j := by
      rw [hcol, hl m hm]
      rw [List.filterMap_congr (g := fun i => some (if small then (entriesAt m.rows i).reverse else entriesAt m.rows i))]
      · rw [← List.filterMap_eq_map]; rfl
      · intro i hi
        rw [List.getElem?_map, List.getElem?_range (hlt i hi)]
        rfl
    rw [hrows, hw]
    have hfin : (⟨s.map (entriesAt m.rows), m.rows.length⟩ : NpMat α).transpose = ⟨m.rows.map fun r => s.filterMap (r[·]?), m.width⟩ := by
      unfold NpMat.transpose
      simp only [NpMat.mk.injEq]
      refine ⟨?_, by rw [List.length_map, s1.length_eq, List.length_range, hl m hm]⟩
      apply List.ext_getElem?
      intro k
      rw [List.getElem?_map, List.getElem?_map]
      by_cases hk : k < m.rows.length
      · rw [List.getElem?_range hk, List.getElem?_eq_getElem hk]
        exact congrArg some (entriesAt_map s k _ (List.getElem?_eq_getElem hk) fun b hb i hi => by rw [hwf m hm b hb, hl m hm]; exact hlt i hi)
      · rw [List.getElem?_eq_none (by simpa using hk), List.getElem?_eq_none (by simpa using hk)]
        rfl
    rw [← hfin]
    cases small
    · rfl
    · show NpMat.transpose ⟨List.map List.reverse (s.map _), _⟩ = _
      rw [List.map_map]
      congr 2
      refine List.map_congr_left fun j _ => ?_
      simp
  · refine s3.imp_of_mem fun {i j} hi hj hij => ?_
    have e : ∀ i ∈ s, (args.map turn).filterMap (·.rows[i]?) = args.map fun m => if small then (entriesAt m.rows i).reverse else entriesAt m.rows i := by
      intro i hi
      rw [List.filterMap_map, List.filterMap_congr (g := fun m => some (if small then (entriesAt m.rows i).reverse else entriesAt m.rows i))]
      · rw [← List.filterMap_eq_map]; rfl
      · intro m hm
        simp only [Function.comp_def]
        rw [hcol, List.getElem?_map, hl m hm, List.getElem?_range (hlt i hi)]
        rfl
    rw [e i hi, e j hj] at hij
    exact hij

example : sortRowsTogether [⟨[[5, 1, 2], [3, 1, 5], [2, 2, 1]], 3⟩, ⟨[[1, 2], [1, 5], [2, 1]], 2⟩] =
    .ok [⟨[[2, 2, 1], [3, 1, 5], [5, 1, 2]], 3⟩, ⟨[[2, 1], [1, 5], [1, 2]], 2⟩] := by decide +kernel

example : sortColsTogether true [⟨[[5, 1, 2], [3, 1, 5], [2, 2, 1]], 3⟩, ⟨[[22, 11, 33], [99, 77, 44]], 3⟩] =
    .ok [⟨[[2, 1, 5], [5, 1, 3], [1, 2, 2]], 3⟩, ⟨[[33, 11, 22], [44, 77, 99]], 3⟩] := by decide +kernel

example : sortColsTogether false [⟨[[5, 1, 2], [3, 1, 5], [2, 2, 1]], 3⟩, ⟨[[22, 11, 33], [99, 77, 44]], 3⟩] =
    .ok [⟨[[1, 2, 5], [1, 5, 3], [2, 1, 2]], 3⟩, ⟨[[11, 33, 22], [77, 44, 99]], 3⟩] := by decide +kernel

/-- **C111.** Matrices with different numbers of rows (columns) are rejected; for matrices without rows (columns) nothing is returned. -/
theorem C111_errors (small : Bool) (first : NpMat α) (rest : List (NpMat α)) :
    ((∃ m ∈ rest, m.rows.length ≠ first.rows.length) → sortRowsTogether (first :: rest) = .error .argMismatch) ∧
    ((∃ m ∈ rest, m.width ≠ first.width) → sortColsTogether small (first :: rest) = .error .argMismatch) ∧
    ((∀ m ∈ first :: rest, m.rows = []) → sortRowsTogether (first :: rest) = .ok []) ∧
    ((∀ m ∈ first :: rest, m.width = 0) → sortColsTogether small (first :: rest) = .ok []) := by
  have h3 : ∀ (first : NpMat α) rest, (∀ m ∈ first :: rest, m.rows = []) → sortRowsTogether (first :: rest) = .ok [] := by
    intro first rest h0
    rw [sortRowsTogether, if_pos, C110_errors.2.2 _ (by simp)]
    · rfl
    · intro a ha
      obtain ⟨m, hm, rfl⟩ := List.mem_map.1 ha
      exact h0 m hm
    · rw [List.all_eq_true]
      intro a ha
      simp [h0 a ha, h0 first]
  refine ⟨fun ⟨m, hm, hl⟩ => ?_, fun ⟨m, hm, hl⟩ => ?_, h3 first rest, fun h0 => ?_⟩
  · rw [sortRowsTogether, if_neg]
    rw [List.all_eq_true]
    intro h
    exact hl (by simpa using h m (by simp [hm]))
  · rw [sortColsTogether, if_neg]
    rw [List.all_eq_true]
    intro h
    exact hl (by simpa using h m (by simp [hm]))
  · rw [sortColsTogether, if_pos]
    · simp only [List.map_cons]
      rw [h3]
      · rfl
      · rw [← List.map_cons (f := fun arg : NpMat α => if small = true then arg.transpose.fliplr else arg.transpose)]
        intro t ht
        obtain ⟨m, hm, rfl⟩ := List.mem_map.1 ht
        cases small
        · show List.map _ (List.range m.width) = []
          rw [h0 m hm]; rfl
        · show List.map _ (List.map _ (List.range m.width)) = []
          rw [h0 m hm]; rfl
    · rw [List.all_eq_true]
      intro a ha
      simp [h0 a ha, h0 first]

end

/-! ## the least common multiple -/

theorem lcm_step (a b : Int) (h : (Int.gcd a b : Int) ≠ 0) :
    (Int.gcd a b : Int) * (a * b).fdiv (Int.gcd a b) = a * b ∧ ∀ d, (a * b).fdiv (Int.gcd a b) ∣ d ↔ a ∣ d ∧ b ∣ d := by
  have hg : (Int.gcd a b : Int) ∣ a * b := Dvd.dvd.mul_right (Int.gcd_dvd_left ..) b
  have h1 : (Int.gcd a b : Int) * (a * b).fdiv (Int.gcd a b) = a * b := by
    rw [mul_comm]
    exact Int.fdiv_mul_cancel hg
  refine ⟨h1, fun d => ?_⟩
  have hl : ((a * b).fdiv (Int.gcd a b)).natAbs = Int.lcm a b := by
    have e := congrArg Int.natAbs h1
    rw [Int.natAbs_mul, Int.natAbs_mul, Int.natAbs_natCast, ← Int.gcd_mul_lcm] at e
    exact Nat.eq_of_mul_eq_mul_left (by omega) e
  rw [← Int.natAbs_dvd, hl]
  constructor
  · intro hd
    exact ⟨(Int.dvd_lcm_left a b).trans hd, (Int.dvd_lcm_right a b).trans hd⟩
  · rintro ⟨h1, h2⟩
    rw [Int.coe_lcm]
    exact lcm_dvd h1 h2

theorem lcmLoop_spec (l : List Int) (a : Int) :
    ((a :: l).count 0 ≤ 1 → ∃ m, lcmLoop a l = .ok m ∧ (∀ d, m ∣ d ↔ ∀ b ∈ a :: l, b ∣ d) ∧ m.sign = (a :: l).prod.sign) ∧
    (2 ≤ (a :: l).count 0 → lcmLoop a l = .error .zeroDivision) := by
  induction l generalizing a with
  | nil => exact ⟨fun _ => ⟨a, rfl, by simp, by simp⟩, fun h => absurd (h.trans List.count_le_length) (by simp)⟩
  | cons b l ih =>
    rw [lcmLoop]
    by_cases hg : (Int.gcd a b : Int) = 0
    · rw [if_pos hg]
      obtain ⟨rfl, rfl⟩ : a = 0 ∧ b = 0 := Int.gcd_eq_zero_iff.1 (by exact_mod_cast hg)
      exact ⟨fun h => by simp at h, fun _ => rfl⟩
    · rw [if_neg hg]
      obtain ⟨h1, h2⟩ := lcm_step a b hg
      set m := (a * b).fdiv (Int.gcd a b) with hm
      have h0 : m = 0 ↔ a = 0 ∨ b = 0 := by
        constructor
        · intro h
          rw [h, mul_zero] at h1
          exact mul_eq_zero.1 h1.symm
        · intro h
          rcases mul_eq_zero.1 (h1.trans (by rcases h with rfl | rfl <;> simp)) with h | h
          · exact absurd h hg
          · exact h
      have hab : ¬ (a = 0 ∧ b = 0) := fun ⟨ha, hb⟩ => hg (by rw [ha, hb]; rfl)
      have hc : (m :: l).count 0 = (a :: b :: l).count 0 := by
        rw [List.count_cons, List.count_cons, List.count_cons]
        simp only [beq_iff_eq]
        by_cases ha : a = 0
        · have hb : b ≠ 0 := fun hb => hab ⟨ha, hb⟩
          rw [if_pos (h0.2 (.inl ha)), if_pos ha, if_neg hb]
        · by_cases hb : b = 0
          · rw [if_pos (h0.2 (.inr hb)), if_neg ha, if_pos hb]
          · rw [if_neg (fun h => (h0.1 h).elim ha hb), if_neg ha, if_neg hb]
      have hsign : m.sign = (a * b).sign := by
        have := congrArg Int.sign h1
        rwa [Int.sign_mul, Int.sign_eq_one_of_pos (by omega), one_mul] at this
      obtain ⟨i1, i2⟩ := ih m
      rw [hc] at i1 i2
      refine ⟨fun h => ?_, i2⟩
      obtain ⟨r, r1, r2, r3⟩ := i1 h
      refine ⟨r, r1, fun d => ?_, ?_⟩
      · rw [r2 d]
        simp only [List.mem_cons, forall_eq_or_imp]
        rw [h2 d, and_assoc]
      · rw [r3, List.prod_cons, List.prod_cons, List.prod_cons, Int.sign_mul, hsign, ← Int.sign_mul, mul_assoc]

/-- **C112.** `multi_lcm` returns the number whose multiples are the common multiples of all given integers (negative iff their product is negative); it is defined as
soon as there is an integer and not more than one is zero.  No integer is a `TypeError`, two zeros are a `ZeroDivisionError`. -/
theorem C112_multi_lcm (l : List Int) :
    (l ≠ [] → l.count 0 ≤ 1 → ∃ m, multiLcm l = .ok m ∧ (∀ d, m ∣ d ↔ ∀ b ∈ l, b ∣ d) ∧ m.sign = l.prod.sign) ∧
    (l = [] → multiLcm l = .error .typeError) ∧ (2 ≤ l.count 0 → multiLcm l = .error .zeroDivision) := by
  cases l with
  | nil => exact ⟨fun h => absurd rfl h, fun _ => rfl, fun h => by simp at h⟩
  | cons a l => exact ⟨fun _ => (lcmLoop_spec l a).1, fun h => (by simp at h), (lcmLoop_spec l a).2⟩

example : multiLcm [4, 6, -10] = .ok (-60) ∧ multiLcm [4, 0, 6] = .ok 0 ∧ multiLcm [0, 5, 0] = .error .zeroDivision := by decide +kernel

end Verif.A
