import Verif.SigPerm.Props2

/-! # C31: negative indices -/

namespace Verif.SG
open Verif.Py Verif.P Verif.BV Verif.A

theorem useNegIndex_negative (neg : Option NegArg) {n : Int} (h : n < 0) : useNegIndex neg (some n) = .error .intvalError := by
  unfold useNegIndex
  simp only
  rw [C26_negative_intval n none none h]
  rfl

theorem useNegIndex_natural (neg : Option NegArg) {n : Int} (h : 0 ≤ n) : ∃ b, useNegIndex neg (some n) = .ok b := by
  unfold useNegIndex BV.mk mkIntval
  simp only [if_pos h]
  split_ifs <;> exact ⟨_, rfl⟩

theorem usePermIndex_negative (perm : Option PermArg) {n : Int} (h : n < 0) : usePermIndex perm (some n) = .error .valueError := by
  unfold usePermIndex
  simp only
  rw [if_neg (by omega)]

/-- **C31.** Negative indices are rejected, whatever the other arguments are.  In a pair of integers, and in the corresponding arguments, a negative first
number is an IntvalError of Binv, and a negative second number is a ValueError when the first one is natural. -/
theorem C31_negative_index :
    (∀ (a : Args) (n : Int), n < 0 → a.valnegIndex = some n ∨ a.keynegIndex = some n ∨ a.permIndex = some n ∨ (∃ m, a.pair = some (m, n) ∨ a.pair = some (n, m)) →
      ∃ e, new a = .error e) ∧
    (∀ v r : Int, v < 0 → new { pair := some (v, r) } = .error .intvalError ∧ new { valnegIndex := some v, permIndex := some r } = .error .intvalError ∧
      new { keynegIndex := some v, permIndex := some r } = .error .intvalError) ∧
    ∀ v r : Int, 0 ≤ v → r < 0 → new { pair := some (v, r) } = .error .valueError ∧ new { valnegIndex := some v, permIndex := some r } = .error .valueError ∧
      new { keynegIndex := some v, permIndex := some r } = .error .valueError := by
  refine ⟨fun a n hn h => ?_, fun v r hv => ?_, fun v r hv hr => ?_⟩
  · cases hr : new a with
    | error e => exact ⟨e, rfl⟩
    | ok s =>
      exfalso
      unfold new at hr
      simp only [bind, Except.bind] at hr
      cases h1 : convNeg a.keyneg with
      | error e => rw [h1] at hr; cases hr
      | ok k =>
      cases h2 : convNeg a.valneg with
      | error e => rw [h1, h2] at hr; cases hr
      | ok v =>
      cases h3 : convPerm a.perm with
      | error e => rw [h1, h2, h3] at hr; cases hr
      | ok p =>
      cases h4 : usePair a with
      | error e => rw [h1, h2, h3, h4] at hr; cases hr
      | ok w =>
      obtain ⟨vi, pi⟩ := w
      rw [h1, h2, h3, h4] at hr
      simp only at hr
      cases h5 : useNegIndex v vi with
      | error e => rw [h5] at hr; cases hr
      | ok v' =>
      rw [h5] at hr
      simp only at hr
      cases h6 : useNegIndex k a.keynegIndex with
      | error e => rw [h6] at hr; cases hr
      | ok k' =>
      rw [h6] at hr
      simp only at hr
      cases h7 : usePermIndex p pi with
      | error e => rw [h7] at hr; cases hr
      | ok p' =>
      have hvi : vi ≠ some n := by rintro rfl; rw [useNegIndex_negative v hn] at h5; cases h5
      have hki : a.keynegIndex ≠ some n := by intro e; rw [e, useNegIndex_negative k hn] at h6; cases h6
      have hpi : pi ≠ some n := by rintro rfl; rw [usePermIndex_negative p hn] at h7; cases h7
      unfold usePair at h4
      cases hpair : a.pair with
      | none =>
        rw [hpair] at h4
        cases h4
        rw [hpair] at h
        rcases h with h | h | h | ⟨m, h | h⟩
        · exact hvi h
        · exact hki h
        · exact hpi h
        · cases h
        · cases h
      | some w =>
        obtain ⟨x, y⟩ := w
        rw [hpair] at h4
        simp only at h4
        split at h4
        · rename_i hall
          simp only [Bool.and_eq_true, Option.isNone_iff_eq_none] at hall
          cases h4
          rw [hpair] at h
          rcases h with h | h | h | ⟨m, h | h⟩
          · rw [hall.1.1.1.1.1.1.2] at h; cases h
          · exact hki h
          · rw [hall.1.1.2] at h; cases h
          · cases h; exact hpi rfl
          · cases h; exact hvi rfl
        · cases h4
  · refine ⟨?_, ?_, ?_⟩
    · unfold new
      simp only [bind, Except.bind, convNeg, convPerm, usePair, Option.isNone_none, Bool.and_self, if_true, useNegIndex_negative none hv]
    · unfold new
      simp only [bind, Except.bind, convNeg, convPerm, usePair, useNegIndex_negative none hv]
    · unfold new
      simp only [bind, Except.bind, convNeg, convPerm, usePair, useNegIndex_negative none hv]
      rfl
  · obtain ⟨b, hb⟩ := useNegIndex_natural none hv
    have h0 : useNegIndex none none = .ok none := rfl
    refine ⟨?_, ?_, ?_⟩
    · unfold new
      simp only [bind, Except.bind, convNeg, convPerm, usePair, Option.isNone_none, Bool.and_self, if_true, hb, h0, usePermIndex_negative none hr]
    · unfold new
      simp only [bind, Except.bind, convNeg, convPerm, usePair, hb, h0, usePermIndex_negative none hr]
    · unfold new
      simp only [bind, Except.bind, convNeg, convPerm, usePair, hb, h0, usePermIndex_negative none hr]

example : new { pair := some (5, -1) } = .error .valueError := (C31_negative_index.2.2 5 (-1) (by decide) (by decide)).1

example : ∃ e, new { sequence := some [0, 1], permIndex := some (-2) } = .error e :=
  C31_negative_index.1 _ (-2) (by decide) (Or.inr (Or.inr (Or.inl rfl)))

end Verif.SG
