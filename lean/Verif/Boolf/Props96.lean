import Verif.Boolf.Props4
import Verif.SigPerm.Props
import Verif.SetPart.Props

/-!
# C64: truth tables that the constructor does not accept
-/

namespace Verif.BF
open Verif.Py Verif.BV Verif.P Verif.W Verif.SP
open Verif.A hiding Mat

/-- **C64.** An integer needs an arity that is not negative, and it needs to be a natural number with at most `2 ** arity` digits. -/
theorem C64_integer_errors (i : Int) (av : Option (List Int)) (skip : Bool) :
    newTT (.int i) av none skip = .error .argType ∧
    (∀ n : Int, n < 0 → newTT (.int i) av (some n) skip = .error .valueError) ∧
    ∀ n : Nat, (i < 0 → newTT (.int i) av (some (n : Int)) skip = .error .intvalError) ∧
      (2 ^ 2 ^ n ≤ i → newTT (.int i) av (some (n : Int)) skip = .error .lengthError) := by
  refine ⟨rfl, fun n hn => ?_, fun n => ⟨fun hi => ?_, fun hi => ?_⟩⟩
  · simp [newTT, ttBinv, hn, bind, Except.bind]
  · simp only [newTT, ttBinv, bind, Except.bind]
    rw [if_neg (by omega), C26_negative_intval i _ none hi]
  · obtain ⟨m, rfl⟩ := Int.eq_ofNat_of_zero_le (show 0 ≤ i from Int.le_trans (by positivity) hi)
    simp only [newTT, ttBinv, bind, Except.bind]
    rw [if_neg (by omega), Int.toNat_natCast, Nat.one_shiftLeft]
    have := (C26_intval_length m (2 ^ n) (Nat.two_pow_pos n)).2 (by
      intro h
      have : ((m : Nat) : Int) < ((2 ^ 2 ^ n : Nat) : Int) := by exact_mod_cast h
      push_cast at this
      omega)
    rw [show BV.mk { intval := some ((m : Nat) : Int), length := some (((2 ^ n : Nat)) : Int) } = .error .lengthError from this]

/-- **C64.** With an arity the table has to be an integer.  A Boolean gives the constant, and does not go with other arguments.  Entries of a list have to be
`0` or `1`, and characters of a string have to be digits `0` and `1`, or blanks. -/
theorem C64_type_errors (av : Option (List Int)) (skip : Bool) :
    (∀ (n : Int) (tt : TT), (∀ b, tt ≠ .bool b) → (∀ i, tt ≠ .int i) → newTT tt av (some n) skip = .error .assertion) ∧
    (∀ b, newTT (.bool b) = .ok (setConstant b) ∧ ∀ n : Option Int, (av ≠ none ∨ n ≠ none ∨ skip = true) → newTT (.bool b) av n skip = .error .argCombo) ∧
    (∀ l : List Int, (∃ x ∈ l, x ≠ 0 ∧ x ≠ 1) → newTT (.list l) av none skip = .error .vectorEntry) ∧
    (∀ s : List Char, (∃ c ∈ s, c ≠ '0' ∧ c ≠ '1' ∧ c ≠ ' ') → newTT (.str s) av none skip = .error .vectorEntry) := by
  refine ⟨fun n tt h1 h2 => ?_, fun b => ⟨rfl, fun n h => ?_⟩, fun l h => ?_, fun s h => ?_⟩
  · cases tt with
    | bool b => exact absurd rfl (h1 b)
    | int i => exact absurd rfl (h2 i)
    | _ => rfl
  · unfold newTT
    simp only
    rw [if_pos]
    cases av <;> cases n <;> cases skip <;> simp_all
  · simp only [newTT, ttBinv, bind, Except.bind]
    rw [(C26_vector l []).2.1 h]
  · simp only [newTT, ttBinv, bind, Except.bind]
    rw [(C26_vector [] s).2.2.2 h]

example : newTT (.int 6) none none = .error .argType := (C64_integer_errors 6 none false).1
example : newTT (.int 16) (some [3, 4]) (some 2) = .error .lengthError := ((C64_integer_errors 16 _ false).2.2 2).2 (by decide)
example : newTT (.list [0, 2]) = .error .vectorEntry := (C64_type_errors none false).2.2.1 _ ⟨2, by decide⟩

end Verif.BF
