import Verif.A.Logic
import Mathlib.Tactic.Common

/-! # Model of the rest of a/logic_abs_increase and of the flags of a/logic_negate; property C22 -/

namespace Verif.A
open Verif.Py

/-! ## Model -/

/-- a/logic_abs_increase/__init__.py:6-19 with `want_string=True` -/
def logicAbsIncreaseStr (a b : Int) : Except Err (List Char) :=
  let resultAbs := logicAbs a + b
  if resultAbs ≥ 0 then
    let resultValue := if a < 0 then inv resultAbs else resultAbs
    .ok (logicStr resultValue)
  else .error .argValue

/-- a/logic_abs_increase/__init__.py:22-35 with `want_string=True` -/
def logicAbsIncreaseVectorStr (a b : List Int) : Except Err (List Char) :=
  if a.length = b.length then do
    let resultVector ← (a.zip b).mapM fun ab => logicAbsIncreaseStr ab.1 ab.2
    pure ("[".toList ++ ", ".toList.intercalate resultVector ++ "]".toList)
  else .error .argValue

/-- A truth value as `logic_negate` and `logic_negate_vector` get it: a number (`False` and `True` are 0 and 1) or a string. -/
inductive Flag where
  | num (n : Int)
  | str (s : List Char)
  deriving DecidableEq

/-- `bool(flag)`: only the number 0 and the empty string are false. -/
def Flag.truthy : Flag → Bool
  | .num n => n ≠ 0
  | .str s => s ≠ []

/-- `int(flag)`; of the strings, only `'0'` and `'1'` are needed below, all others stand for a value that is neither 0 nor 1 (python may raise a
`ValueError` instead). -/
def Flag.int : Flag → Int
  | .num n => n
  | .str s => if s = ['0'] then 0 else if s = ['1'] then 1 else 2

/-- a/logic_negate/__init__.py:6-10 without `want_string`, with all flags the check in line 7 knows -/
def logicNegateFlag (value : Int) (doIt : Flag) : Except Err Int :=
  if doIt ∈ [.num 0, .str ['0'], .num 1, .str ['1']] then .ok (if doIt.truthy then inv value else value) else .error .argValue

/-- a/logic_negate/__init__.py:33-37 (`where`, without `want_string`), with flags that can be strings -/
def logicNegateVectorFlags (values : List Int) (wher : List Flag) : Except Err (List Int) :=
  if values.length = wher.length then
    if wher.all (fun x => x.int = 0 ∨ x.int = 1) then
      .ok (List.zipWith (fun v b => if b.truthy then inv v else v) values wher)
    else .error .argValue
  else .error .argMismatch

/-! ## C22 -/

theorem increase_str (a b : Int) : logicAbsIncreaseStr a b = (logicAbsIncrease a b).map logicStr := by
  unfold logicAbsIncreaseStr logicAbsIncrease
  dsimp only
  split <;> rfl

theorem intercalate_listStr {α : Type} (e : α → List Char) (l : List α) :
    "[".toList ++ ", ".toList.intercalate (l.map e) ++ "]".toList = listStr e l := by
  have tail : ∀ l : List α, (l.map fun x => ", ".toList ++ e x).flatten ++ "]".toList = listStrTail e l := by
    intro l
    induction l with
    | nil => rfl
    | cons x l ih => simp only [List.map_cons, List.flatten_cons, List.append_assoc, ih]; rfl
  have inter : ∀ (x : α) (l : List α), ", ".toList.intercalate ((x :: l).map e) = e x ++ (l.map fun x => ", ".toList ++ e x).flatten := by
    intro x l
    induction l generalizing x with
    | nil => simp [List.intercalate]
    | cons y l ih =>
      have := ih y
      simp only [List.map_cons] at this ⊢
      rw [List.intercalate_cons_cons, this]
      simp
  cases l with
  | nil => rfl
  | cons x l =>
    rw [inter, List.append_assoc, List.append_assoc, tail]
    rfl

theorem zip_mapM_ok {α β γ : Type} {f : α × β → Except Err γ} : ∀ {a : List α} {b : List β}, a.length = b.length →
    (∀ (i : Nat) x y, a[i]? = some x → b[i]? = some y → ∃ z, f (x, y) = .ok z) →
    ∃ r, (a.zip b).mapM f = .ok r ∧ r.length = a.length ∧ ∀ (i : Nat) x y z, a[i]? = some x → b[i]? = some y → (r[i]? = some z ↔ f (x, y) = .ok z)
  | [], [], _, _ => ⟨[], rfl, rfl, by simp⟩
  | x :: a, y :: b, hl, h => by
    obtain ⟨z, hz⟩ := h 0 x y rfl rfl
    obtain ⟨r, hr, hlen, hi⟩ := zip_mapM_ok (f := f) (a := a) (b := b) (by simpa using hl) fun i => h (i + 1)
    refine ⟨z :: r, ?_, by simp [hlen], ?_⟩
    · simp only [List.zip_cons_cons, List.mapM_cons, hz, hr, bind, Except.bind, pure, Except.pure]
    · intro i x' y' z' hx hy
      cases i with
      | zero => simp at hx hy; subst hx hy; simp [hz]
      | succ i => exact hi i x' y' z' hx hy

theorem zip_mapM_error {α β γ : Type} {f : α × β → Except Err γ} {e : Err} (he : ∀ p e', f p = .error e' → e' = e) :
    ∀ {a : List α} {b : List β} (i : Nat) x y, a[i]? = some x → b[i]? = some y → f (x, y) = .error e → (a.zip b).mapM f = .error e
  | [], _, i, x, y, hx, _, _ => by simp at hx
  | _ :: _, [], i, x, y, _, hy, _ => by simp at hy
  | x0 :: a, y0 :: b, i, x, y, hx, hy, h => by
    simp only [List.zip_cons_cons, List.mapM_cons, bind, Except.bind, pure, Except.pure]
    cases h0 : f (x0, y0) with
    | error e' => rw [he _ _ h0]
    | ok z =>
      simp only
      cases i with
      | zero => simp at hx hy; subst hx hy; rw [h0] at h; cases h
      | succ i => rw [zip_mapM_error he (a := a) (b := b) i x y hx hy h]

/-- The absolute values of the first vector are shifted by the entries of the second, and the signs stay.  Shifting back gives the first vector again. -/
theorem C22_abs_increase_vector (a b : List Int) (hl : a.length = b.length)
    (h : ∀ (i : Nat) x y, a[i]? = some x → b[i]? = some y → 0 ≤ logicAbs x + y) :
    ∃ r, logicAbsIncreaseVector a b = .ok r ∧ r.length = a.length ∧
      (∀ (i : Nat) x y z, a[i]? = some x → b[i]? = some y → r[i]? = some z → (z < 0 ↔ x < 0) ∧ logicAbs z = logicAbs x + y) ∧
      logicAbsIncreaseVector r (b.map fun y => -y) = .ok a ∧
      logicAbsIncreaseVectorStr a b = .ok (logicStrVector r) := by
  obtain ⟨r, hr, hlen, hi⟩ := zip_mapM_ok (f := fun ab : Int × Int => logicAbsIncrease ab.1 ab.2) hl fun i x y hx hy => by
    obtain ⟨r, hr, _⟩ := (C22_abs_increase x y).1 (h i x y hx hy)
    exact ⟨r, hr⟩
  refine ⟨r, by unfold logicAbsIncreaseVector; rw [if_pos hl, hr], hlen, ?_, ?_, ?_⟩
  · intro i x y z hx hy hz
    obtain ⟨z', h1, h2, h3, _⟩ := (C22_abs_increase x y).1 (h i x y hx hy)
    have := (hi i x y z hx hy).1 hz
    rw [show logicAbsIncrease x y = .ok z from this] at h1
    cases h1
    exact ⟨h2, h3⟩
  · have hb : ∀ (i : Nat) z y', r[i]? = some z → (b.map fun y => -y)[i]? = some y' → ∃ x, a[i]? = some x ∧ logicAbsIncrease z y' = .ok x := by
      intro i z y' hz hy'
      rw [List.getElem?_map] at hy'
      obtain ⟨y, hy, rfl⟩ := Option.map_eq_some_iff.1 hy'
      have hia : i < a.length := by rw [← hlen]; exact (List.getElem?_eq_some_iff.1 hz).1
      have hx : a[i]? = some a[i] := List.getElem?_eq_getElem hia
      obtain ⟨z', h1, _, _, h4⟩ := (C22_abs_increase a[i] y).1 (h i _ y hx hy)
      have := (hi i _ y z hx hy).1 hz
      rw [show logicAbsIncrease a[i] y = .ok z from this] at h1
      cases h1
      exact ⟨_, hx, h4⟩
    have hl' : r.length = (b.map fun y => -y).length := by rw [List.length_map, hlen, hl]
    obtain ⟨s, hs, hslen, hsi⟩ := zip_mapM_ok (f := fun ab : Int × Int => logicAbsIncrease ab.1 ab.2) hl' fun i z y hz hy => by
      obtain ⟨x, _, hx⟩ := hb i z y hz hy
      exact ⟨x, hx⟩
    unfold logicAbsIncreaseVector
    rw [if_pos hl', hs]
    congr 1
    apply List.ext_getElem?
    intro i
    by_cases hi' : i < r.length
    · have hz : r[i]? = some r[i] := List.getElem?_eq_getElem hi'
      have hy := List.getElem?_eq_getElem (l := b.map fun y => -y) (i := i) (by rw [← hl']; exact hi')
      obtain ⟨x, hx, hx'⟩ := hb i _ _ hz hy
      rw [hx]
      exact (hsi i _ _ x hz hy).2 hx'
    · rw [List.getElem?_eq_none (by omega), List.getElem?_eq_none (by omega)]
  · have : ∀ (l : List (Int × Int)) (r : List Int), l.mapM (fun ab => logicAbsIncrease ab.1 ab.2) = .ok r →
        l.mapM (fun ab => logicAbsIncreaseStr ab.1 ab.2) = .ok (r.map logicStr) := by
      intro l
      induction l with
      | nil => intro r h; cases h; rfl
      | cons p l ih =>
        intro r h
        simp only [List.mapM_cons, bind, Except.bind, pure, Except.pure, increase_str] at h ⊢
        cases hp : logicAbsIncrease p.1 p.2 with
        | error e => rw [hp] at h; cases h
        | ok z =>
          rw [hp] at h
          simp only [Except.map] at h ⊢
          cases hm : l.mapM (fun ab => logicAbsIncrease ab.1 ab.2) with
          | error e => rw [hm] at h; cases h
          | ok r' =>
            rw [hm] at h
            cases h
            have := ih r' hm
            simp only [increase_str, Except.map] at this
            rw [this]
            rfl
    unfold logicAbsIncreaseVectorStr
    rw [if_pos hl, this _ _ hr]
    exact congrArg Except.ok (intercalate_listStr logicStr r)

/-- Vectors of different lengths, or an absolute value that would become negative, are an `ArgValueError`. -/
theorem C22_abs_increase_vector_error (a b : List Int)
    (h : a.length ≠ b.length ∨ ∃ (i : Nat) (x y : Int), a[i]? = some x ∧ b[i]? = some y ∧ logicAbs x + y < 0) :
    logicAbsIncreaseVector a b = .error .argValue ∧ logicAbsIncreaseVectorStr a b = .error .argValue := by
  unfold logicAbsIncreaseVector logicAbsIncreaseVectorStr
  by_cases hl : a.length = b.length
  · rw [if_pos hl, if_pos hl]
    obtain ⟨i, x, y, hx, hy, hn⟩ := h.resolve_left fun h => h hl
    have he : ∀ (p : Int × Int) e', logicAbsIncrease p.1 p.2 = .error e' → e' = .argValue := by
      intro p e' h
      unfold logicAbsIncrease at h
      dsimp only at h
      split at h <;> cases h
      rfl
    have h0 := (C22_abs_increase x y).2 hn
    rw [zip_mapM_error he i x y hx hy h0]
    rw [zip_mapM_error (f := fun ab : Int × Int => logicAbsIncreaseStr ab.1 ab.2) (e := .argValue) ?_ i x y hx hy (by simp only [increase_str, h0]; rfl)]
    · exact ⟨rfl, rfl⟩
    · intro p e' h
      simp only [increase_str] at h
      cases hp : logicAbsIncrease p.1 p.2 with
      | ok z => rw [hp] at h; cases h
      | error e => rw [hp] at h; cases h; exact he p _ hp
  · rw [if_neg hl, if_neg hl]
    exact ⟨rfl, rfl⟩

example : logicAbsIncreaseVector [4, -5, 0] [-4, 3, 2] = .ok [0, -8, 2] ∧ logicAbsIncreaseVectorStr [4, -5, 0] [-4, 3, 2] = .ok "[0, ~7, 2]".toList ∧
    logicAbsIncreaseVector [4, -5, 0] [-4, -5, 2] = .error .argValue := by decide

/-- The flags 0 and 1 act like the booleans. -/
theorem C22_flag_numbers (value : Int) (values w : List Int) (d : Bool) :
    logicNegateFlag value (.num (if d then 1 else 0)) = .ok (logicNegate value d) ∧
    logicNegateVectorFlags values (w.map Flag.num) = logicNegateVector values (some w) none := by
  constructor
  · cases d <;> simp [logicNegateFlag, logicNegate, Flag.truthy]
  · unfold logicNegateVectorFlags logicNegateVector zipBy
    simp only [List.length_map, List.all_map, Function.comp_def, Flag.int, List.zipWith_map_right, Flag.truthy, ne_eq, decide_not, Bool.not_eq_eq_eq_not, Bool.not_true,
      decide_eq_false_iff_not]
    rfl

/-- The flag `'0'` is accepted by the checks, but it is a non-empty string.  So it has the same effect as `'1'`: the value is negated. -/
theorem C22_flag_strings (value : Int) (values : List Int) (w : List (List Char)) (hl : values.length = w.length) (hw : ∀ s ∈ w, s = ['0'] ∨ s = ['1']) :
    logicNegateFlag value (.str ['0']) = .ok (-value - 1) ∧ logicNegateFlag value (.str ['1']) = .ok (-value - 1) ∧
    logicNegateVectorFlags values (w.map Flag.str) = .ok (values.map fun v => -v - 1) := by
  refine ⟨rfl, rfl, ?_⟩
  unfold logicNegateVectorFlags
  rw [if_pos (by simpa using hl), if_pos]
  · congr 1
    apply List.ext_getElem
    · simp [hl]
    · intro i h1 h2
      have hi : i < w.length := by simp at h1; omega
      have : w[i] ≠ [] := by rcases hw w[i] (List.getElem_mem hi) with h | h <;> rw [h] <;> simp
      simp [Flag.truthy, this, inv]
  · rw [List.all_eq_true]
    intro x hx
    obtain ⟨s, hs, rfl⟩ := List.mem_map.1 hx
    rcases hw s hs with rfl | rfl <;> simp [Flag.int]

example : logicNegateVectorFlags [4, -3] [.str ['0'], .str ['1']] = .ok [-5, 2] ∧ logicNegateVectorFlags [4, -3] [.num 0, .num 1] = .ok [4, 2] ∧
    logicNegateFlag 4 (.str ['0']) = .ok (-5) ∧ logicNegateFlag 4 (.num 2) = .error .argValue := by decide

end Verif.A
