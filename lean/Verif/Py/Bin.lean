import Mathlib.Data.Nat.BitIndices
import Mathlib.Tactic.Ring

/-!
# Binary numerals of python

`"{0:b}".format(n)` and `int(s, 2)`; the digits are kept least significant first, i.e. as
`"{0:b}".format(n)[::-1]`.
-/

namespace Verif.Py

/-- Digits of `n`, least significant first, none for zero; `fuel` at least `n` is enough. -/
def binLoop : Nat → Nat → List Bool
  | 0, _ => []
  | f + 1, n => if n = 0 then [] else (n % 2 == 1) :: binLoop f (n / 2)

/-- `"{0:b}".format(n)[::-1]` -/
def binLE (n : Nat) : List Bool := if n = 0 then [false] else binLoop n n

/-- `int(s[::-1], 2)` -/
def valB : List Bool → Nat
  | [] => 0
  | b :: bs => b.toNat + 2 * valB bs

theorem valB_lt (l : List Bool) : valB l < 2 ^ l.length := by
  induction l with
  | nil => simp [valB]
  | cons b bs ih =>
    have := Bool.toNat_lt b
    rw [valB, List.length_cons, Nat.pow_succ]; omega

theorem valB_inj {l m : List Bool} (hl : l.length = m.length) (h : valB l = valB m) : l = m := by
  induction l generalizing m with
  | nil => cases m with
    | nil => rfl
    | cons _ _ => simp at hl
  | cons b bs ih => cases m with
    | nil => simp at hl
    | cons c cs =>
      simp only [valB] at h
      have h1 := Bool.toNat_lt b
      have h2 := Bool.toNat_lt c
      have h3 : b.toNat = c.toNat := by omega
      have h4 : valB bs = valB cs := by omega
      rw [ih (by simpa using hl) h4]
      congr 1
      cases b <;> cases c <;> simp_all

theorem testBit_valB (l : List Bool) (i : Nat) : (valB l).testBit i = l.getD i false := by
  induction l generalizing i with
  | nil => simp [valB]
  | cons b bs ih =>
    cases i with
    | zero => rw [valB]; cases b <;> simp [Nat.testBit_zero]
    | succ i =>
      rw [Nat.testBit_add_one, valB]
      have : (b.toNat + 2 * valB bs) / 2 = valB bs := by have := Bool.toNat_lt b; omega
      rw [this, ih]; simp

theorem valB_append (l m : List Bool) : valB (l ++ m) = valB l + 2 ^ l.length * valB m := by
  induction l with
  | nil => simp [valB]
  | cons b bs ih => rw [List.cons_append, valB, valB, ih, List.length_cons, Nat.pow_succ]; ring

theorem valB_replicate_false (k : Nat) : valB (List.replicate k false) = 0 := by
  induction k with
  | zero => rfl
  | succ k ih => rw [List.replicate_succ, valB, ih]; rfl

theorem valB_eq_zero {l : List Bool} : valB l = 0 ↔ ∀ b ∈ l, b = false := by
  induction l with
  | nil => simp [valB]
  | cons b bs ih =>
    rw [valB]
    simp only [List.mem_cons, forall_eq_or_imp]
    cases b <;> simp [ih]

theorem valB_binLoop (f n : Nat) (h : n ≤ f) : valB (binLoop f n) = n := by
  induction f generalizing n with
  | zero => simp [binLoop, valB]; omega
  | succ f ih =>
    unfold binLoop
    by_cases h0 : n = 0
    · simp [h0, valB]
    · rw [if_neg h0, valB, ih _ (by omega)]
      rcases Nat.mod_two_eq_zero_or_one n with h2 | h2 <;> simp [h2] <;> omega

theorem valB_binLE (n : Nat) : valB (binLE n) = n := by
  unfold binLE
  by_cases h : n = 0
  · simp [h, valB]
  · rw [if_neg h, valB_binLoop _ _ (Nat.le_refl _)]

/-- The number of digits. -/
theorem length_binLoop (f n : Nat) (h : n ≤ f) (L : Nat) : (binLoop f n).length ≤ L ↔ n < 2 ^ L := by
  induction f generalizing n L with
  | zero => have : n = 0 := by omega
            subst this; simp [binLoop]
  | succ f ih =>
    unfold binLoop
    by_cases h0 : n = 0
    · simp [h0]
    · rw [if_neg h0, List.length_cons]
      cases L with
      | zero => simp; omega
      | succ L => rw [Nat.succ_le_succ_iff, ih _ (by omega), Nat.pow_succ]; omega

theorem binLoop_eq_nil {f n : Nat} (h : n ≤ f) : binLoop f n = [] ↔ n = 0 := by
  constructor
  · intro e
    have := valB_binLoop f n h
    rw [e] at this; exact this.symm
  · intro e; subst e; cases f <;> simp [binLoop]

/-- The last (most significant) digit is a one. -/
theorem getLast_binLoop (f n : Nat) (h : n ≤ f) (b : Bool) (hb : (binLoop f n).getLast? = some b) : b = true := by
  induction f generalizing n with
  | zero => simp [binLoop] at hb
  | succ f ih =>
    unfold binLoop at hb
    by_cases h0 : n = 0
    · simp [h0] at hb
    · rw [if_neg h0] at hb
      cases e : binLoop f (n / 2) with
      | nil =>
        rw [e] at hb
        have := (binLoop_eq_nil (by omega : n / 2 ≤ f)).1 e
        have h1 : n = 1 := by omega
        subst h1
        simpa using hb.symm
      | cons c cs =>
        rw [e, List.getLast?_cons_cons, ← e] at hb
        exact ih _ (by omega) hb

end Verif.Py
