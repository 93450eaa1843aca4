import Verif.A.Helpers
import Verif.SetPart.Str

/-! # Strings of lists and matrices with aligned signs; property C151 -/

namespace Verif.A
open Verif.Py

theorem isFigure_eq (c : Char) : isFigure c = c.isDigit := by
  rw [Bool.eq_iff_iff]
  unfold isFigure
  rw [List.contains_iff_mem]
  constructor
  · intro h
    have : c = '0' ∨ c = '1' ∨ c = '2' ∨ c = '3' ∨ c = '4' ∨ c = '5' ∨ c = '6' ∨ c = '7' ∨ c = '8' ∨ c = '9' := by simpa using h
    rcases this with rfl | rfl | rfl | rfl | rfl | rfl | rfl | rfl | rfl | rfl <;> decide
  · intro h
    have hd : 48 ≤ c.toNat ∧ c.toNat ≤ 57 := by
      simp only [Char.isDigit, Bool.and_eq_true, decide_eq_true_eq] at h
      exact ⟨h.1, h.2⟩
    have : ∀ n, 48 ≤ n → n ≤ 57 → Char.ofNat n ∈ "0123456789".toList := by decide
    have := this c.toNat hd.1 hd.2
    rwa [Char.ofNat_toNat] at this

theorem replace_nil (old new : List Char) : replaceAll old new [] = [] := by rw [replaceAll]

/-- Nothing is replaced where the first character of the word does not occur. -/
theorem replace_skip {a : Char} {old new : List Char} : ∀ (s r : List Char), a ∉ s → replaceAll (a :: old) new (s ++ r) = s ++ replaceAll (a :: old) new r
  | [], _, _ => rfl
  | c :: s, r, h => by
    have hc : a ≠ c := fun e => h (by simp [e])
    rw [List.cons_append, replaceAll, if_neg, replace_skip s r fun h' => h (by simp [h'])]
    · rfl
    · simp [List.isPrefixOf, hc]

theorem replace_word {a : Char} {old new r : List Char} : replaceAll (a :: old) new (a :: old ++ r) = new ++ replaceAll (a :: old) new r := by
  rw [List.cons_append, replaceAll, if_pos]
  · congr 2
    rw [← List.cons_append, List.drop_left]
  · refine ⟨by simp, ?_⟩
    rw [← List.cons_append, List.isPrefixOf_iff_prefix]
    exact List.prefix_append _ _

/-- The end of the string, or a character that can follow an entry of a list. -/
def Delim0 (r : List Char) : Prop := r = [] ∨ Delim r

theorem signs_delim {r : List Char} (h : Delim0 r) (last : Char) : signsLoop last r = signsLoop ' ' r := by
  rcases h with rfl | ⟨s, rfl | rfl | rfl⟩ <;> rfl

/-- A character after which a number gets a space. -/
def Opens (c : Char) : Prop := isFigure c = false ∧ c ≠ '-'

/-- `e'` is `e` with aligned signs. -/
def Shows {α : Type} (e e' : α → List Char) : Prop := ∀ x last r, Opens last → Delim0 r → signsLoop last (e x ++ r) = e' x ++ signsLoop ' ' r

theorem signs_digits : ∀ (d : List Char) (last : Char) (r : List Char), (∀ c ∈ d, c.isDigit = true) → (last = '-' ∨ last.isDigit = true) → Delim0 r →
    signsLoop last (d ++ r) = d ++ signsLoop ' ' r
  | [], last, r, _, _, hr => signs_delim hr last
  | c :: d, last, r, hd, hl, hr => by
    rw [List.cons_append, signsLoop, if_neg, signs_digits d c r (fun x hx => hd x (by simp [hx])) (Or.inr (hd c (by simp))) hr]
    · rfl
    · rcases hl with rfl | hl
      · simp
      · simp [isFigure_eq, hl]

/-- The entries with a sign: a minus or a space. -/
def signed (n : Int) : List Char := (if n < 0 then '-' else ' ') :: natStr n.natAbs

theorem shows_int : Shows intStr signed := by
  intro x last r hl hr
  unfold signed
  by_cases hx : x < 0
  · rw [SP.intStr_neg hx, if_pos hx, List.cons_append, signsLoop, if_neg (by simp [show isFigure '-' = false from by decide]), signs_digits _ _ _ (fun c hc => natStr_digit hc) (Or.inl rfl) hr]
    rfl
  · rw [intStr_nonneg (by omega), if_neg hx, show x.toNat = x.natAbs by omega]
    cases hd : natStr x.natAbs with
    | nil => exact absurd hd Nat.toDigits_ne_nil
    | cons c d =>
      have hall : ∀ c' ∈ c :: d, c'.isDigit = true := fun c' hc' => natStr_digit (n := x.natAbs) (by rw [hd]; exact hc')
      have hc := hall c (by simp)
      rw [List.cons_append, signsLoop, if_pos, signs_digits _ _ _ (fun c' hc' => hall c' (by simp [hc'])) (Or.inr hc) hr]
      · rfl
      · rw [isFigure_eq c, hc, hl.1]
        simp [hl.2]

theorem delim0_tail {α : Type} (e : α → List Char) (l : List α) (r : List Char) : Delim0 (listStrTail e l ++ r) := Or.inr (delim_listStrTail e l r)

theorem shows_tail {α : Type} {e e' : α → List Char} (h : Shows e e') (r : List Char) (hr : Delim0 r) : ∀ (l : List α),
    signsLoop ' ' (listStrTail e l ++ r) = listStrTail e' l ++ signsLoop ' ' r
  | [] => by
    simp only [listStrTail, List.cons_append, List.nil_append]
    rw [signsLoop, if_neg (by decide), signs_delim hr]
  | x :: l => by
    simp only [listStrTail, List.cons_append, List.append_assoc]
    rw [signsLoop, if_neg (by decide), signsLoop, if_neg (by decide), h x ' ' _ (by constructor <;> decide) (delim0_tail e l r), shows_tail h r hr l]

theorem shows_list {α : Type} {e e' : α → List Char} (h : Shows e e') : Shows (listStr e) (listStr e') := by
  intro l last r hl hr
  cases l with
  | nil =>
    simp only [listStr, List.cons_append, List.nil_append]
    rw [signsLoop, if_neg (by simp [show isFigure '[' = false from by decide]), signsLoop, if_neg (by decide), signs_delim hr]
  | cons x l =>
    simp only [listStr, List.cons_append, List.append_assoc]
    rw [signsLoop, if_neg (by simp [show isFigure '[' = false from by decide]), h x '[' _ (by constructor <;> decide) (delim0_tail e l r), shows_tail h r hr l]

/-- The words for truth values do not occur. -/
def NoWords {α : Type} (e : α → List Char) : Prop := ∀ x, 'T' ∉ e x ∧ 'F' ∉ e x

theorem noWords_int : NoWords intStr := by
  intro x
  constructor <;> intro h <;> rcases SP.mem_intStr h with h | h <;> revert h <;> decide

theorem noWords_list {α : Type} {e : α → List Char} (h : NoWords e) : NoWords (listStr e) := by
  have tail : ∀ l : List α, 'T' ∉ listStrTail e l ∧ 'F' ∉ listStrTail e l := by
    intro l
    induction l with
    | nil => simp [listStrTail]
    | cons x l ih => simp [listStrTail, h x, ih]
  intro l
  cases l with
  | nil => simp [listStr]
  | cons x l => simp [listStr, h x, tail l]

theorem pretty_noWords {s : List Char} (h : 'T' ∉ s ∧ 'F' ∉ s) : prettySigns s = signsLoop ' ' s := by
  have e1 : replaceAll "True".toList ['●'] s = s := by
    have := replace_skip (old := "rue".toList) (new := ['●']) s [] h.1
    rw [List.append_nil, replace_nil, List.append_nil] at this
    exact this
  have e2 : replaceAll "False".toList ['○'] s = s := by
    have := replace_skip (old := "alse".toList) (new := ['○']) s [] h.2
    rw [List.append_nil, replace_nil, List.append_nil] at this
    exact this
  unfold prettySigns
  simp only
  rw [e1, e2]

theorem pretty_shows {α : Type} {e e' : α → List Char} (h : Shows e e') (hw : NoWords e) (x : α) : prettySigns (e x) = e' x := by
  rw [pretty_noWords (hw x)]
  have := h x ' ' [] (by constructor <;> decide) (Or.inl rfl)
  rw [List.append_nil] at this
  rw [this, signsLoop, List.append_nil]

/-- **C151.** In the string of a list or matrix of integers every entry gets a sign of one character: a minus or a space. -/
theorem C151_signs_integers (l : List Int) (m : List (List Int)) :
    prettySigns (listStr intStr l) = listStr signed l ∧ prettySigns (listStr (listStr intStr) m) = listStr (listStr signed) m :=
  ⟨pretty_shows (shows_list shows_int) (noWords_list noWords_int) l, pretty_shows (shows_list (shows_list shows_int)) (noWords_list (noWords_list noWords_int)) m⟩

/-- `str` of a truth value -/
def boolStr (b : Bool) : List Char := if b then "True".toList else "False".toList

/-- A full or an empty circle. -/
def circle (b : Bool) : List Char := [if b then '●' else '○']

/-- after the first replacement -/
def half (b : Bool) : List Char := if b then ['●'] else "False".toList

theorem replace_list {α : Type} {a : Char} {old new : List Char} {e e' : α → List Char} (ha : a ∉ "[], ".toList)
    (h : ∀ x r, replaceAll (a :: old) new (e x ++ r) = e' x ++ replaceAll (a :: old) new r) (l : List α) (r : List Char) :
    replaceAll (a :: old) new (listStr e l ++ r) = listStr e' l ++ replaceAll (a :: old) new r := by
  have hc : a ≠ '[' ∧ a ≠ ']' ∧ a ≠ ',' ∧ a ≠ ' ' := by simpa using ha
  have tail : ∀ l : List α, replaceAll (a :: old) new (listStrTail e l ++ r) = listStrTail e' l ++ replaceAll (a :: old) new r := by
    intro l
    induction l with
    | nil => exact replace_skip [']'] r (by simp [hc])
    | cons x l ih =>
      simp only [listStrTail, List.cons_append, List.append_assoc]
      have := replace_skip (old := old) (new := new) [',', ' '] (e x ++ (listStrTail e l ++ r)) (a := a) (by simp [hc])
      simp only [List.cons_append, List.nil_append] at this
      rw [this, h, ih]
  cases l with
  | nil => exact replace_skip ['[', ']'] r (by simp [hc])
  | cons x l =>
    simp only [listStr, List.cons_append, List.append_assoc]
    have := replace_skip (old := old) (new := new) ['['] (e x ++ (listStrTail e l ++ r)) (a := a) (by simp [hc])
    simp only [List.cons_append, List.nil_append] at this
    rw [this, h, tail]

theorem half_step (b : Bool) (r : List Char) : replaceAll "True".toList ['●'] (boolStr b ++ r) = half b ++ replaceAll "True".toList ['●'] r := by
  cases b
  · exact replace_skip (old := "rue".toList) "False".toList r (by decide)
  · exact replace_word (old := "rue".toList)

theorem circle_step (b : Bool) (r : List Char) : replaceAll "False".toList ['○'] (half b ++ r) = circle b ++ replaceAll "False".toList ['○'] r := by
  cases b
  · exact replace_word (old := "alse".toList)
  · exact replace_skip (old := "alse".toList) ['●'] r (by decide)

theorem shows_circle : Shows circle circle := by
  intro b last r _ hr
  cases b
  · simp only [circle, Bool.false_eq_true, if_false, List.cons_append, List.nil_append]
    rw [signsLoop, if_neg (by simp [show isFigure '○' = false from by decide]), signs_delim hr]
  · simp only [circle, if_true, List.cons_append, List.nil_append]
    rw [signsLoop, if_neg (by simp [show isFigure '●' = false from by decide]), signs_delim hr]

/-- **C151.** In the string of a list or matrix of truth values the words are replaced by full and empty circles. -/
theorem C151_signs_booleans (l : List Bool) (m : List (List Bool)) :
    prettySigns (listStr boolStr l) = listStr circle l ∧ prettySigns (listStr (listStr boolStr) m) = listStr (listStr circle) m := by
  have a1 := replace_list (a := 'T') (old := "rue".toList) (new := ['●']) (e := boolStr) (e' := half) (by decide) half_step
  have a2 := replace_list (a := 'F') (old := "alse".toList) (new := ['○']) (e := half) (e' := circle) (by decide) circle_step
  have b1 := replace_list (a := 'T') (old := "rue".toList) (new := ['●']) (by decide) a1
  have b2 := replace_list (a := 'F') (old := "alse".toList) (new := ['○']) (by decide) a2
  have fin : ∀ {α : Type} {e h c : α → List Char} (_ : ∀ x r, replaceAll "True".toList ['●'] (e x ++ r) = h x ++ replaceAll "True".toList ['●'] r)
      (_ : ∀ x r, replaceAll "False".toList ['○'] (h x ++ r) = c x ++ replaceAll "False".toList ['○'] r) (_ : Shows c c) (x : α), prettySigns (e x) = c x := by
    intro α e h c h1 h2 h3 x
    have e1 := h1 x []
    have e2 := h2 x []
    rw [List.append_nil, replace_nil, List.append_nil] at e1 e2
    unfold prettySigns
    simp only
    rw [e1, e2]
    have := h3 x ' ' [] (by constructor <;> decide) (Or.inl rfl)
    rw [List.append_nil] at this
    rw [this, signsLoop, List.append_nil]
  exact ⟨fin a1 a2 (shows_list shows_circle) l, fin b1 b2 (shows_list (shows_list shows_circle)) m⟩

theorem signs_places : ∀ (s : List Char) (last : Char), signsLoop last s =
    (s.zip (last :: s)).flatMap fun p => if p.1.isDigit = true ∧ p.2.isDigit = false ∧ p.2 ≠ '-' then [' ', p.1] else [p.1]
  | [], _ => rfl
  | c :: s, last => by
    rw [signsLoop, List.zip_cons_cons, List.flatMap_cons, ← signs_places s c]
    simp only [isFigure_eq, Bool.and_eq_true, Bool.not_eq_true', decide_eq_true_eq]
    split <;> rfl

/-- **C151.** In any string without the words for truth values, a space is added exactly before each figure whose predecessor is neither a figure nor a minus sign.  (Before the first
character stands nothing, which counts like a space.) -/
theorem C151_signs_places (s : List Char) (h : 'T' ∉ s ∧ 'F' ∉ s) : prettySigns s =
    (s.zip (' ' :: s)).flatMap fun p => if p.1.isDigit = true ∧ p.2.isDigit = false ∧ p.2 ≠ '-' then [' ', p.1] else [p.1] := by
  rw [pretty_noWords h, signs_places]

example : prettySigns "[[1, -2], [-10, 0]]".toList = "[[ 1, -2], [-10,  0]]".toList ∧ prettySigns "[True, False]".toList = "[●, ○]".toList := by decide +kernel

end Verif.A
