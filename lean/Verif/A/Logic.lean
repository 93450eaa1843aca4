import Verif.Py.Basic
import Verif.Py.Str

/-! # Model of a/logic_negate, a/logic_abs, a/logic_abs_increase, a/logic_str; property C22

Integers only: the type checks (`type(value) == int`) hold by typing, `do_it` is a boolean. -/

namespace Verif.A
open Verif.Py

/-! ## Model -/

/-- python `~n` -/
def inv (n : Int) : Int := -n - 1

/-- a/logic_abs/__init__.py:1-5 -/
def logicAbs (n : Int) : Int := if n < 0 then inv n else n

/-- a/logic_abs/__init__.py:8-9 -/
def logicAbsVector (v : List Int) : List Int := v.map logicAbs

/-- `str(n)` of an integer. -/
def intStr (n : Int) : List Char := if n < 0 then '-' :: natStr n.natAbs else natStr n.toNat

/-- a/logic_negate/__init__.py:6-10 (without `want_string`) -/
def logicNegate (value : Int) (doIt : Bool := true) : Int := if doIt then inv value else value

/-- a/logic_negate/__init__.py:6-14 with `want_string=True` -/
def logicNegateStr (value : Int) (doIt : Bool := true) : List Char :=
  let resultValue := if doIt then inv value else value
  let a := logicAbs resultValue
  if resultValue < 0 then '~' :: intStr a else intStr a

/-- `[f(_) for _ in range(len(values))]` for lists of equal length. -/
def zipBy {α : Type} (f : Int → Int → α) (values w : List Int) : List α := List.zipWith f values w

/-- a/logic_negate/__init__.py:17-49 without `want_string`; `where` has integer entries. -/
def logicNegateVector (values : List Int) (wher : Option (List Int)) (which : Option (List Int)) :
    Except Err (List Int) :=
  match wher, which with
  | some w, none =>
    if values.length = w.length then
      if w.all (fun x => x = 0 ∨ x = 1) then
        .ok (zipBy (fun v b => if b ≠ 0 then inv v else v) values w)
      else .error .argValue
    else .error .argMismatch
  | none, some w =>
    if w.all (fun x => x ≥ 0) then
      let absValues := logicAbsVector values
      if w.all (fun x => absValues.contains x) then
        .ok (zipBy (fun v a => if w.contains a then inv v else v) values absValues)
      else .error .argMismatch
    else .error .argValue
  | _, _ => .error .argCombo

/-- a/logic_negate/__init__.py:17-57 with `want_string=True`; the list of strings before joining. -/
def logicNegateVectorStr (values : List Int) (wher : Option (List Int)) (which : Option (List Int)) :
    Except Err (List (List Char)) :=
  match wher, which with
  | some w, none =>
    if values.length = w.length then
      if w.all (fun x => x = 0 ∨ x = 1) then
        .ok (zipBy (fun v b => if b ≠ 0 then logicNegateStr v else logicNegateStr v false) values w)
      else .error .argValue
    else .error .argMismatch
  | none, some w =>
    if w.all (fun x => x ≥ 0) then
      let absValues := logicAbsVector values
      if w.all (fun x => absValues.contains x) then
        .ok (zipBy (fun v a => if w.contains a then logicNegateStr v true else logicNegateStr v false) values absValues)
      else .error .argMismatch
    else .error .argValue
  | _, _ => .error .argCombo

/-- a/logic_str/__init__.py:6-10 -/
def logicStr (n : Int) : List Char :=
  let s := intStr (logicAbs n)
  if n < 0 then '~' :: s else s

/-- a/logic_str/__init__.py:13-15 -/
def logicStrVector (v : List Int) : List Char := listStr logicStr v

/-- a/logic_abs_increase/__init__.py:6-19 without `want_string` -/
def logicAbsIncrease (a b : Int) : Except Err Int :=
  let resultAbs := logicAbs a + b
  if resultAbs ≥ 0 then .ok (if a < 0 then inv resultAbs else resultAbs) else .error .argValue

/-- a/logic_abs_increase/__init__.py:22-33 without `want_string` -/
def logicAbsIncreaseVector (a b : List Int) : Except Err (List Int) :=
  if a.length = b.length then (a.zip b).mapM (fun ab => logicAbsIncrease ab.1 ab.2) else .error .argValue

/-! ## Lemmas -/

theorem inv_inv (n : Int) : inv (inv n) = n := by unfold inv; omega

theorem logicAbs_nonneg (n : Int) : 0 ≤ logicAbs n := by unfold logicAbs inv; split <;> omega

theorem zipWith_map_right {α β γ δ : Type} (f : α → γ → δ) (g : β → γ) (l : List α) (m : List β) :
    List.zipWith f l (m.map g) = List.zipWith (fun a b => f a (g b)) l m := by
  induction l generalizing m with
  | nil => simp
  | cons x xs ih => cases m with
    | nil => simp
    | cons y ys => simp [ih]

theorem zipWith_self {α δ : Type} (f : α → α → δ) (l : List α) : List.zipWith f l l = l.map (fun a => f a a) := by
  induction l with
  | nil => rfl
  | cons x xs ih => simp

/-! ## C22 -/

theorem C22_negate_involution (n : Int) (d : Bool) : logicNegate (logicNegate n d) d = n ∧
    (d = true → (logicNegate n d < 0 ↔ 0 ≤ n)) ∧ logicNegate n false = n := by
  unfold logicNegate
  refine ⟨?_, ?_, by simp⟩
  · cases d <;> simp [inv_inv]
  · intro h; subst h; simp [inv]; omega

theorem C22_abs (n : Int) (d : Bool) : logicAbs (logicAbs n) = logicAbs n ∧ logicAbs (logicNegate n d) = logicAbs n ∧
    0 ≤ logicAbs n ∧ (logicAbs n = n ∨ logicNegate (logicAbs n) = n) := by
  unfold logicNegate logicAbs inv
  cases d <;> simp only [if_true, Bool.false_eq_true, if_false] <;> refine ⟨?_, ?_, ?_, ?_⟩ <;>
    (repeat' split) <;> first | trivial | omega

/-- Two numbers with the same logical absolute value are equal or negations of each other. -/
theorem C22_abs_eq (m n : Int) : logicAbs m = logicAbs n ↔ m = n ∨ m = logicNegate n := by
  unfold logicNegate logicAbs inv
  simp only [if_true]
  split <;> split <;> constructor <;> omega

/-- `where`: negates exactly the chosen places, and is its own inverse. -/
theorem C22_where (values w : List Int) (hl : values.length = w.length) (hw : ∀ x ∈ w, x = 0 ∨ x = 1) :
    ∃ r : List Int, logicNegateVector values (some w) none = .ok r ∧ r.length = values.length ∧
      (∀ (i : Nat) v b, values[i]? = some v → w[i]? = some b → r[i]? = some (if b = 1 then -v - 1 else v)) ∧
      logicNegateVector r (some w) none = .ok values := by
  have hall : (w.all (fun x => x = 0 ∨ x = 1)) = true := by simpa using hw
  refine ⟨_, by simp only [logicNegateVector]; rw [if_pos hl, if_pos hall], ?_, ?_, ?_⟩
  · simp [zipBy, hl]
  · intro i v b hv hb
    unfold zipBy
    rw [List.getElem?_zipWith, hv, hb]
    rcases hw b (List.mem_of_getElem? hb) with rfl | rfl <;> simp [inv]
  · unfold logicNegateVector zipBy
    simp only
    rw [if_pos (by simp [hl]), if_pos hall]
    congr 1
    apply List.ext_getElem
    · simp [hl]
    · intro i h1 h2
      rw [List.getElem_zipWith, List.getElem_zipWith]
      split <;> simp [inv_inv]

/-- `where`: a length mismatch or a non-binary entry is an error. -/
theorem C22_where_error (values w : List Int) :
    (values.length ≠ w.length → logicNegateVector values (some w) none = .error .argMismatch) ∧
    (values.length = w.length → (¬ ∀ x ∈ w, x = 0 ∨ x = 1) →
      logicNegateVector values (some w) none = .error .argValue) := by
  constructor
  · intro h; simp [logicNegateVector, h]
  · intro h1 h2
    simp only [logicNegateVector]
    rw [if_pos h1, if_neg]
    simpa using h2

/-- `which`: negates exactly the entries whose absolute value is chosen, and is its own inverse. -/
theorem C22_which (values w : List Int) (hw : ∀ x ∈ w, ∃ v ∈ values, v = x ∨ v = -x - 1) (hn : ∀ x ∈ w, 0 ≤ x) :
    ∃ r : List Int, logicNegateVector values none (some w) = .ok r ∧ r.length = values.length ∧
      (∀ (i : Nat) v, values[i]? = some v → r[i]? = some (if v ∈ w ∨ -v - 1 ∈ w then -v - 1 else v)) ∧
      logicNegateVector r none (some w) = .ok values := by
  have hall : (w.all (fun x => x ≥ 0)) = true := by simpa using hn
  have habs : ∀ v : Int, logicAbs v ∈ w ↔ (v ∈ w ∨ -v - 1 ∈ w) := by
    intro v
    unfold logicAbs inv
    split
    · rename_i h
      constructor
      · intro h'; exact Or.inr h'
      · rintro (h' | h')
        · have := hn _ h'; omega
        · exact h'
    · constructor
      · intro h'; exact Or.inl h'
      · rintro (h' | h')
        · exact h'
        · have := hn _ h'; omega
  have hocc : ∀ vs : List Int, (∀ x ∈ w, ∃ v ∈ vs, v = x ∨ v = -x - 1) →
      (w.all (fun x => (logicAbsVector vs).contains x)) = true := by
    intro vs hvs
    rw [List.all_eq_true]
    intro x hx
    obtain ⟨v, hv, hv2⟩ := hvs x hx
    rw [List.contains_iff_mem, logicAbsVector, List.mem_map]
    have := hn x hx
    refine ⟨v, hv, ?_⟩
    unfold logicAbs inv
    rcases hv2 with rfl | rfl <;> split <;> omega
  have hz : ∀ vs : List Int, zipBy (fun v a => if w.contains a then inv v else v) vs (logicAbsVector vs) =
      vs.map (fun v => if logicAbs v ∈ w then inv v else v) := by
    intro vs
    unfold zipBy logicAbsVector
    rw [zipWith_map_right, zipWith_self]
    simp
  have habs2 : ∀ v, logicAbs (if logicAbs v ∈ w then inv v else v) = logicAbs v := by
    intro v
    split
    · have := (C22_abs v true).2.1; simpa [logicNegate] using this
    · rfl
  refine ⟨values.map (fun v => if logicAbs v ∈ w then inv v else v), ?_, by simp, ?_, ?_⟩
  · simp only [logicNegateVector]
    rw [if_pos hall, if_pos (hocc _ hw), hz]
  · intro i v hv
    rw [List.getElem?_map, hv]
    simp [habs, inv]
  · simp only [logicNegateVector]
    rw [if_pos hall, if_pos, hz, List.map_map]
    · congr 1
      conv_rhs => rw [← List.map_id values]
      apply List.map_congr_left
      intro v _
      simp only [Function.comp, habs2]
      split <;> simp [inv_inv]
    · apply hocc
      intro x hx
      obtain ⟨v, hv, hv2⟩ := hw x hx
      refine ⟨_, List.mem_map_of_mem hv, ?_⟩
      split <;> (try unfold inv) <;> rcases hv2 with rfl | rfl <;> omega

/-- `which`: fails iff an entry is negative, or does not occur (up to negation). -/
theorem C22_which_error (values w : List Int) :
    ((¬ ∀ x ∈ w, 0 ≤ x) → logicNegateVector values none (some w) = .error .argValue) ∧
    ((∀ x ∈ w, 0 ≤ x) → (¬ ∀ x ∈ w, ∃ v ∈ values, v = x ∨ v = -x - 1) →
      logicNegateVector values none (some w) = .error .argMismatch) := by
  constructor
  · intro h
    simp only [logicNegateVector]
    rw [if_neg]
    simpa using h
  · intro h1 h2
    simp only [logicNegateVector]
    rw [if_pos (by simpa using h1), if_neg]
    intro h3
    apply h2
    rw [List.all_eq_true] at h3
    intro x hx
    have := h3 x hx
    rw [List.contains_iff_mem, logicAbsVector, List.mem_map] at this
    obtain ⟨v, hv, hv2⟩ := this
    refine ⟨v, hv, ?_⟩
    unfold logicAbs inv at hv2
    split at hv2 <;> omega

theorem C22_combo (values w w' : List Int) : logicNegateVector values (some w) (some w') = .error .argCombo ∧
    logicNegateVector values none none = .error .argCombo := ⟨rfl, rfl⟩

example : logicNegateVector [4, -3, 2, 7] (some [0, 1, 1, 0]) none = .ok [4, 2, -3, 7] := by decide
example : logicNegateVector [4, -3, 7] none (some [2, 7]) = .ok [4, 2, -8] := by decide

/-- The sign is kept and the absolute value shifted; fails iff it would become negative. -/
theorem C22_abs_increase (a b : Int) :
    (0 ≤ logicAbs a + b → ∃ r, logicAbsIncrease a b = .ok r ∧ (r < 0 ↔ a < 0) ∧ logicAbs r = logicAbs a + b ∧
      logicAbsIncrease r (-b) = .ok a) ∧
    (logicAbs a + b < 0 → logicAbsIncrease a b = .error .argValue) := by
  constructor
  · intro h
    have key : ∀ r : Int, r = (if a < 0 then inv (logicAbs a + b) else logicAbs a + b) →
        (r < 0 ↔ a < 0) ∧ logicAbs r = logicAbs a + b := by
      intro r hr
      subst hr
      constructor
      · by_cases ha : a < 0
        · rw [if_pos ha]; unfold inv; omega
        · rw [if_neg ha]; omega
      · generalize logicAbs a + b = c at h ⊢
        by_cases ha : a < 0
        · rw [if_pos ha]
          unfold logicAbs
          rw [if_pos (by unfold inv; omega), inv_inv]
        · rw [if_neg ha]
          unfold logicAbs
          rw [if_neg (by omega)]
    obtain ⟨k1, k2⟩ := key _ rfl
    refine ⟨_, by simp only [logicAbsIncrease]; rw [if_pos h], k1, k2, ?_⟩
    simp only [logicAbsIncrease]
    rw [k2]
    have := logicAbs_nonneg a
    rw [if_pos (by omega)]
    congr 1
    by_cases ha : a < 0
    · rw [if_pos (k1.2 ha), show logicAbs a + b + -b = logicAbs a by omega]
      unfold logicAbs; rw [if_pos ha, inv_inv]
    · rw [if_neg (fun h => ha (k1.1 h)), show logicAbs a + b + -b = logicAbs a by omega]
      unfold logicAbs; rw [if_neg ha]
  · intro h
    simp only [logicAbsIncrease]; rw [if_neg (by omega)]

example : logicAbsIncrease (-4) 5 = .ok (-9) ∧ logicAbsIncrease (-4) (-4) = .error .argValue := by decide

theorem intStr_nonneg {n : Int} (h : 0 ≤ n) : intStr n = natStr n.toNat := by
  unfold intStr; rw [if_neg (by omega)]

/-- The strings of `want_string=True` are those of `logic_str` of the results without it. -/
theorem C22_want_string (n : Int) (d : Bool) : logicNegateStr n d = logicStr (logicNegate n d) := by
  cases d <;> rfl

theorem C22_want_string_vector (values : List Int) (wher which : Option (List Int)) :
    logicNegateVectorStr values wher which = (logicNegateVector values wher which).map (List.map logicStr) := by
  unfold logicNegateVectorStr logicNegateVector
  cases wher with
  | none => cases which with
    | none => rfl
    | some w =>
      simp only
      split
      · split
        · simp only [Except.map, zipBy, List.map_zipWith]
          congr 2
          funext a b
          split <;> rfl
        · rfl
      · rfl
  | some w => cases which with
    | none =>
      simp only
      split
      · split
        · simp only [Except.map, zipBy, List.map_zipWith]
          congr 2
          funext a b
          split <;> rfl
        · rfl
      · rfl
    | some w' => rfl

theorem natStr_append_ne (n : Nat) (c : Char) (hc : c.isDigit = false) (r s : List Char) : natStr n ++ r ≠ c :: s := by
  intro h
  cases hd : natStr n with
  | nil => exact Nat.toDigits_ne_nil hd
  | cons d ds =>
    rw [hd] at h
    simp only [List.cons_append, List.cons.injEq] at h
    have := natStr_digit (n := n) (c := d) (by rw [hd]; simp)
    rw [h.1, hc] at this; cases this

theorem logicStr_eq (a : Int) : logicStr a = (if a < 0 then ['~'] else []) ++ natStr (logicAbs a).toNat := by
  unfold logicStr
  rw [intStr_nonneg (logicAbs_nonneg _)]
  split <;> simp

theorem logicStr_decodable : Decodable' logicStr where
  inj := by
    intro a b r s hr hs h
    rw [logicStr_eq, logicStr_eq] at h
    have hab : (a < 0 ↔ b < 0) ∧ natStr (logicAbs a).toNat ++ r = natStr (logicAbs b).toNat ++ s := by
      by_cases ha : a < 0 <;> by_cases hb : b < 0 <;> simp [ha, hb] at h ⊢
      · exact h
      · exact absurd h.symm (natStr_append_ne _ _ rfl _ _)
      · exact absurd h (natStr_append_ne _ _ rfl _ _)
      · exact h
    obtain ⟨h1, h2⟩ := natStr_decodable.inj _ _ _ _ hr hs hab.2
    refine ⟨?_, h2⟩
    have := logicAbs_nonneg a
    have := logicAbs_nonneg b
    have h3 : logicAbs a = logicAbs b := by omega
    have h4 := hab.1
    unfold logicAbs inv at h3
    split at h3 <;> split at h3 <;> omega
  ne := by
    intro a s r h
    rw [logicStr_eq] at h
    by_cases ha : a < 0
    · simp [ha] at h
    · simp only [ha, if_false, List.nil_append] at h
      exact natStr_append_ne _ _ rfl _ _ h

theorem C22_logic_str_injective (m n : Int) : logicStr m = logicStr n ↔ m = n := by
  constructor
  · intro h
    exact (logicStr_decodable.inj m n [']'] [']'] ⟨[], by simp⟩ ⟨[], by simp⟩ (by rw [h])).1
  · rintro rfl; rfl

theorem C22_logic_str_vector_injective (v w : List Int) : logicStrVector v = logicStrVector w ↔ v = w := by
  constructor
  · intro h
    exact (listStr_inj logicStr_decodable v w [] [] (by rw [show listStr logicStr v = _ from h]; rfl)).1
  · rintro rfl; rfl

example : logicStr (-4) = "~3".toList ∧ logicStrVector [0, -1, 12] = "[0, ~0, 12]".toList := by decide

end Verif.A
