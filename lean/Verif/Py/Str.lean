import Init.Data.Nat.ToString
import Mathlib.Data.List.Basic

/-!
# Python `str` of numbers and lists, as lists of characters
-/

namespace Verif.Py

/-- `str(n)` for a natural number. -/
def natStr (n : Nat) : List Char := Nat.toDigits 10 n

/-- `repr(x)` of the remaining entries of a list, each preceded by `', '`, and the closing bracket. -/
def listStrTail {α : Type} (e : α → List Char) : List α → List Char
  | [] => [']']
  | x :: xs => ',' :: ' ' :: (e x ++ listStrTail e xs)

/-- `str(l)` for a list whose entries are printed by `e`. -/
def listStr {α : Type} (e : α → List Char) : List α → List Char
  | [] => ['[', ']']
  | x :: xs => '[' :: (e x ++ listStrTail e xs)

/-- The character can follow an entry of a list. -/
def Delim (r : List Char) : Prop := ∃ s, r = ',' :: s ∨ r = ']' :: s ∨ r = ')' :: s

/-- Printed forms followed by a delimiter can be decoded. -/
structure Decodable' {α : Type} (e : α → List Char) : Prop where
  inj : ∀ a b r s, Delim r → Delim s → e a ++ r = e b ++ s → a = b ∧ r = s
  ne : ∀ a s r, e a ++ r ≠ ']' :: s

theorem digits_split (d d' : List Char) (x y : Char) (r s : List Char) (hd : ∀ c ∈ d, c.isDigit = true)
    (hd' : ∀ c ∈ d', c.isDigit = true) (hx : x.isDigit = false) (hy : y.isDigit = false)
    (h : d ++ x :: r = d' ++ y :: s) : d = d' ∧ x :: r = y :: s := by
  induction d generalizing d' with
  | nil =>
    cases d' with
    | nil => exact ⟨rfl, h⟩
    | cons c d' =>
      simp only [List.nil_append, List.cons_append, List.cons.injEq] at h
      have := hd' c (by simp)
      rw [← h.1, hx] at this; cases this
  | cons c d ih =>
    cases d' with
    | nil =>
      simp only [List.nil_append, List.cons_append, List.cons.injEq] at h
      have := hd c (by simp)
      rw [h.1, hy] at this; cases this
    | cons c' d' =>
      simp only [List.cons_append, List.cons.injEq] at h
      obtain ⟨h1, h2⟩ := ih d' (fun c hc => hd c (by simp [hc])) (fun c hc => hd' c (by simp [hc])) h.2
      exact ⟨by rw [h.1, h1], h2⟩

theorem Delim.head {r : List Char} (h : Delim r) : ∃ x s, r = x :: s ∧ x.isDigit = false := by
  obtain ⟨s, rfl | rfl | rfl⟩ := h
  · exact ⟨_, s, rfl, rfl⟩
  · exact ⟨_, s, rfl, rfl⟩
  · exact ⟨_, s, rfl, rfl⟩

theorem natStr_digit {n : Nat} {c : Char} (h : c ∈ natStr n) : c.isDigit = true :=
  Nat.isDigit_of_mem_toDigits (by omega) (by omega) h

theorem natStr_inj {m n : Nat} (h : natStr m = natStr n) : m = n := by
  have h1 := Nat.ofDigitChars_ten_toDigits (n := m)
  rw [show Nat.toDigits 10 m = Nat.toDigits 10 n from h, Nat.ofDigitChars_ten_toDigits] at h1
  exact h1.symm

theorem natStr_decodable : Decodable' natStr where
  inj := by
    intro a b r s hr hs h
    obtain ⟨x, r, rfl, hx⟩ := hr.head
    obtain ⟨y, s, rfl, hy⟩ := hs.head
    obtain ⟨h1, h2⟩ := digits_split _ _ _ _ _ _ (fun _ => natStr_digit) (fun _ => natStr_digit) hx hy h
    exact ⟨natStr_inj h1, h2⟩
  ne := by
    intro a s r h
    cases hd : natStr a with
    | nil => exact Nat.toDigits_ne_nil hd
    | cons c d =>
      rw [hd] at h
      simp only [List.cons_append, List.cons.injEq] at h
      have := natStr_digit (n := a) (c := c) (by rw [hd]; simp)
      rw [h.1] at this; revert this; decide

theorem delim_listStrTail {α : Type} (e : α → List Char) (l : List α) (r : List Char) :
    Delim (listStrTail e l ++ r) := by
  cases l with
  | nil => exact ⟨r, Or.inr (Or.inl rfl)⟩
  | cons x xs => exact ⟨_, Or.inl rfl⟩

theorem listStrTail_inj {α : Type} {e : α → List Char} (he : Decodable' e) (l l' : List α) (r s : List Char)
    (h : listStrTail e l ++ r = listStrTail e l' ++ s) : l = l' ∧ r = s := by
  induction l generalizing l' with
  | nil =>
    cases l' with
    | nil => simpa [listStrTail] using h
    | cons y ys => simp [listStrTail] at h
  | cons x xs ih =>
    cases l' with
    | nil => simp [listStrTail] at h
    | cons y ys =>
      simp only [listStrTail, List.cons_append, List.cons.injEq, true_and, List.append_assoc] at h
      obtain ⟨h1, h2⟩ := he.inj _ _ _ _ (delim_listStrTail e xs r) (delim_listStrTail e ys s) h
      obtain ⟨h3, h4⟩ := ih ys h2
      exact ⟨by rw [h1, h3], h4⟩

theorem listStr_inj {α : Type} {e : α → List Char} (he : Decodable' e) (l l' : List α) (r s : List Char)
    (h : listStr e l ++ r = listStr e l' ++ s) : l = l' ∧ r = s := by
  cases l with
  | nil =>
    cases l' with
    | nil => simpa [listStr] using h
    | cons y ys =>
      simp only [listStr, List.cons_append, List.cons.injEq, true_and, List.append_assoc] at h
      exact absurd h.symm (he.ne _ _ _)
  | cons x xs =>
    cases l' with
    | nil =>
      simp only [listStr, List.cons_append, List.cons.injEq, true_and, List.append_assoc] at h
      exact absurd h (he.ne _ _ _)
    | cons y ys =>
      simp only [listStr, List.cons_append, List.cons.injEq, true_and, List.append_assoc] at h
      obtain ⟨h1, h2⟩ := he.inj _ _ _ _ (delim_listStrTail e xs r) (delim_listStrTail e ys s) h
      obtain ⟨h3, h4⟩ := listStrTail_inj he _ _ _ _ h2
      exact ⟨by rw [h1, h3], h4⟩

theorem listStr_decodable {α : Type} {e : α → List Char} (he : Decodable' e) : Decodable' (listStr e) where
  inj := fun a b r s _ _ h => listStr_inj he a b r s h
  ne := by
    intro a s r h
    cases a with
    | nil => simp [listStr] at h
    | cons x xs => simp [listStr] at h

end Verif.Py
