import Verif.Perm.CyclesArg
import Verif.Perm.Props4

/-! # C174: the number of inversions is the length with respect to adjacent transpositions -/

namespace Verif.P
open Verif.Py

theorem mkPerm_adjacent (i : Nat) : ∃ t, mkPerm (.cycles [[i, i + 1]]) = .ok t ∧ Constructed t ∧ t.perilen = none ∧
    t.get i = i + 1 ∧ t.get (i + 1) = i ∧ ∀ j, j ≠ i → j ≠ i + 1 → t.get j = j := by
  obtain ⟨t, t1, t2, t3⟩ := mkPerm_cycles [[i, i + 1]]
  have hm : t.mapping = [(i, i + 1), (i + 1, i)] := by
    rw [t2]
    simp [moves, Dict.ofPairs, Dict.set]
  refine ⟨t, t1, ⟨_, none, by show [[i, i + 1]].flatten.Nodup; simp, t1⟩, ?_, ?_, ?_, fun j h1 h2 => ?_⟩
  · unfold mkPerm at t1
    cases ha : argMapping (.cycles [[i, i + 1]]) with
    | error e => rw [ha] at t1; cases t1
    | ok m =>
      rw [ha] at t1
      obtain ⟨p, p1, _, _, p4⟩ := finish_get m
      have : finish m none = .ok t := t1
      rw [p1] at this
      cases this
      exact p4
  · rw [t3, hm]; simp [dictFun, Dict.get?]
  · rw [t3, hm]; simp [dictFun, Dict.get?]
  · rw [t3, hm]; simp [dictFun, Dict.get?, Ne.symm h1, Ne.symm h2]

theorem card_inversionSet (p : Perm) : p.inversionSet.length = p.inversionSet.toFinset.card :=
  (List.toFinset_card_of_nodup (nodup_inversionSet p)).symm

/-- **C174.** A permutation has no inversions iff it is neutral. -/
theorem C174_neutral (p : Perm) (hp : Constructed p) (hf : p.perilen = none) : p.inversionSet = [] ↔ p.neutral = true := by
  constructor
  · intro h
    rw [C05_neutral_iff p hp]
    have hm : StrictMono p.get := by
      intro a b hab
      have h1 : (a, b) ∉ p.inversionSet := by rw [h]; simp
      rw [C16_inversion_set_mem p hp hf] at h1
      have h2 : p.get a ≠ p.get b := fun e => by have := hp.wf.get_bijective.1 e; omega
      omega
    intro i
    induction i using Nat.strong_induction_on with
    | _ i ih =>
      have h1 := hm.le_apply (x := i)
      obtain ⟨j, hj⟩ := hp.wf.get_bijective.2 i
      rcases Nat.lt_trichotomy j i with h | h | h
      · have := ih j h; omega
      · rw [h] at hj; exact hj
      · have := hm h; omega
  · intro h
    simp [Perm.inversionSet, (hp.wf.neutral_perilen h).2]

/-- **C174.** The inverse has the same number of inversions: the pair of places (a, b) corresponds to the pair of values. -/
theorem C174_inverse (p : Perm) (hp : Constructed p) (hf : p.perilen = none) :
    ∃ r, p.inverse = .ok r ∧ (∀ a b, (a, b) ∈ p.inversionSet ↔ (p.get b, p.get a) ∈ r.inversionSet) ∧
      r.inversionSet.length = p.inversionSet.length := by
  obtain ⟨r, r1, r2, r3, _, r5, r6⟩ := inverse_spec hp
  have hrf : r.perilen = none := by rw [r3, hf]
  have key : ∀ a b, (a, b) ∈ p.inversionSet ↔ (p.get b, p.get a) ∈ r.inversionSet := fun a b => by
    rw [C16_inversion_set_mem p hp hf, C16_inversion_set_mem r r2 hrf, r5, r5]
    exact and_comm
  refine ⟨r, r1, key, ?_⟩
  rw [card_inversionSet, card_inversionSet]
  symm
  apply Finset.card_bij (fun ab _ => (p.get ab.2, p.get ab.1))
  · rintro ⟨a, b⟩ h
    rw [List.mem_toFinset] at h ⊢
    exact (key a b).1 h
  · rintro ⟨a, b⟩ _ ⟨c, d⟩ _ h
    simp only [Prod.mk.injEq] at h ⊢
    exact ⟨hp.wf.get_bijective.1 h.2, hp.wf.get_bijective.1 h.1⟩
  · rintro ⟨a, b⟩ h
    refine ⟨(r.get b, r.get a), ?_, by simp [r6]⟩
    rw [List.mem_toFinset] at h ⊢
    rw [key]
    simpa [r6] using h

/-- **C174.** A product has at most as many inversions as its factors together: a pair of places is inverted by p * q iff it is inverted
by exactly one of q and (at the places where q puts it) p. -/
theorem C174_product (p q : Perm) (hp : Constructed p) (hq : Constructed q) (hpf : p.perilen = none) (hqf : q.perilen = none) :
    ∃ r, p.mul q = .ok r ∧
      (∀ a b, a < b → ((a, b) ∈ r.inversionSet ↔
        ¬ ((a, b) ∈ q.inversionSet ↔ (min (q.get a) (q.get b), max (q.get a) (q.get b)) ∈ p.inversionSet))) ∧
      r.inversionSet.length ≤ p.inversionSet.length + q.inversionSet.length := by
  obtain ⟨r, r1, r2, r3, r4, _⟩ := mul_spec hp hq (Or.inr (Or.inr (by rw [hpf, hqf])))
  have hrf := r4 hpf hqf
  have key : ∀ a b, a < b → ((a, b) ∈ r.inversionSet ↔
      ¬ ((a, b) ∈ q.inversionSet ↔ (min (q.get a) (q.get b), max (q.get a) (q.get b)) ∈ p.inversionSet)) := by
    intro a b hab
    rw [C16_inversion_set_mem r r2 hrf, C16_inversion_set_mem q hq hqf, C16_inversion_set_mem p hp hpf, r3]
    simp only [Function.comp]
    have h1 : q.get a ≠ q.get b := fun e => by have := hq.wf.get_bijective.1 e; omega
    have h2 : p.get (q.get a) ≠ p.get (q.get b) := fun e => h1 (hp.wf.get_bijective.1 e)
    rcases Nat.lt_or_gt_of_ne h1 with h | h
    · rw [min_eq_left h.le, max_eq_right h.le]
      omega
    · rw [min_eq_right h.le, max_eq_left h.le]
      omega
  refine ⟨r, r1, key, ?_⟩
  rw [card_inversionSet r, card_inversionSet q, ← Finset.card_sdiff_add_card_inter r.inversionSet.toFinset q.inversionSet.toFinset]
  refine Nat.add_le_add ?_ (Finset.card_le_card Finset.inter_subset_right)
  rw [card_inversionSet p]
  apply Finset.card_le_card_of_injOn (fun ab => (min (q.get ab.1) (q.get ab.2), max (q.get ab.1) (q.get ab.2)))
  · rintro ⟨a, b⟩ h
    simp only [Finset.coe_sdiff, Set.mem_sdiff, List.coe_toFinset, Set.mem_ofPred_eq] at h ⊢
    have hab := ((C16_inversion_set_mem r r2 hrf a b).1 h.1).1
    have := (key a b hab).1 h.1
    tauto
  · rintro ⟨a, b⟩ h ⟨c, d⟩ h' e
    simp only [Finset.coe_sdiff, Set.mem_sdiff, List.coe_toFinset, Set.mem_ofPred_eq, C16_inversion_set_mem r r2 hrf,
      C16_inversion_set_mem q hq hqf] at h h' e
    have e1 : min (q.get a) (q.get b) = q.get a := by omega
    have e2 : max (q.get a) (q.get b) = q.get b := by omega
    have e3 : min (q.get c) (q.get d) = q.get c := by omega
    have e4 : max (q.get c) (q.get d) = q.get d := by omega
    rw [e1, e2, e3, e4, Prod.mk.injEq] at e
    rw [hq.wf.get_bijective.1 e.1, hq.wf.get_bijective.1 e.2]

theorem adjacent_le {p t r : Perm} (hp : Constructed p) (hpf : p.perilen = none) (hr : Constructed r) (hrf : r.perilen = none) {i : Nat}
    (h1 : t.get i = i + 1) (h2 : t.get (i + 1) = i) (h3 : ∀ j, j ≠ i → j ≠ i + 1 → t.get j = j) (h : r.get = p.get ∘ t.get)
    (hi : p.get i < p.get (i + 1)) : r.inversionSet.length = p.inversionSet.length + 1 := by
  have hinv : ∀ j, t.get (t.get j) = j := by
    intro j
    by_cases e1 : j = i
    · subst e1; rw [h1, h2]
    · by_cases e2 : j = i + 1
      · subst e2; rw [h2, h1]
      · rw [h3 j e1 e2, h3 j e1 e2]
  have hmono : ∀ a b, a < b → ¬ (a = i ∧ b = i + 1) → t.get a < t.get b := by
    intro a b hab hne
    have ha : t.get a = if a = i then i + 1 else if a = i + 1 then i else a := by
      split
      · subst_vars; exact h1
      · split
        · subst_vars; exact h2
        · exact h3 a ‹_› ‹_›
    have hb : t.get b = if b = i then i + 1 else if b = i + 1 then i else b := by
      split
      · subst_vars; exact h1
      · split
        · subst_vars; exact h2
        · exact h3 b ‹_› ‹_›
    rw [ha, hb]
    split <;> split <;> (try split) <;> (try split) <;> omega
  have hmem : (i, i + 1) ∈ r.inversionSet.toFinset := by
    rw [List.mem_toFinset, C16_inversion_set_mem r hr hrf, h]
    simp only [Function.comp, h1, h2]
    exact ⟨by omega, hi⟩
  rw [card_inversionSet r, ← Finset.card_erase_add_one hmem, card_inversionSet p, Nat.add_right_cancel_iff]
  apply Finset.card_bij (fun ab _ => (t.get ab.1, t.get ab.2))
  · rintro ⟨a, b⟩ hab
    rw [Finset.mem_erase, List.mem_toFinset, C16_inversion_set_mem r hr hrf, h] at hab
    rw [List.mem_toFinset, C16_inversion_set_mem p hp hpf]
    exact ⟨hmono a b hab.2.1 (by simpa using hab.1), hab.2.2⟩
  · rintro ⟨a, b⟩ _ ⟨c, d⟩ _ e
    simp only [Prod.mk.injEq] at e ⊢
    exact ⟨by rw [← hinv a, e.1, hinv], by rw [← hinv b, e.2, hinv]⟩
  · rintro ⟨a, b⟩ hab
    rw [List.mem_toFinset, C16_inversion_set_mem p hp hpf] at hab
    have hne : ¬ (a = i ∧ b = i + 1) := by rintro ⟨rfl, rfl⟩; omega
    have hlt := hmono a b hab.1 hne
    refine ⟨(t.get a, t.get b), ?_, by simp [hinv]⟩
    rw [Finset.mem_erase, List.mem_toFinset, C16_inversion_set_mem r hr hrf, h]
    simp only [Function.comp, hinv, ne_eq, Prod.mk.injEq]
    refine ⟨?_, hlt, hab.2⟩
    rintro ⟨e1, e2⟩
    have e3 : a = i + 1 := by rw [← hinv a, e1, h1]
    have e4 : b = i := by rw [← hinv b, e2, h2]
    omega

/-- **C174.** Swapping two neighbouring places adds or removes exactly one inversion. -/
theorem C174_adjacent (p : Perm) (hp : Constructed p) (hf : p.perilen = none) (i : Nat) :
    ∃ t r, mkPerm (.cycles [[i, i + 1]]) = .ok t ∧ p.mul t = .ok r ∧
      (p.get i < p.get (i + 1) → r.inversionSet.length = p.inversionSet.length + 1) ∧
      (p.get (i + 1) < p.get i → r.inversionSet.length + 1 = p.inversionSet.length) := by
  obtain ⟨t, t1, t2, t3, t4, t5, t6⟩ := mkPerm_adjacent i
  obtain ⟨r, r1, r2, r3, r4, _⟩ := mul_spec hp t2 (Or.inr (Or.inr (by rw [hf, t3])))
  refine ⟨t, r, t1, r1, adjacent_le hp hf r2 (r4 hf t3) t4 t5 t6 r3, fun h => ?_⟩
  refine (adjacent_le r2 (r4 hf t3) hp hf t4 t5 t6 ?_ ?_).symm
  · rw [r3]
    funext j
    simp only [Function.comp]
    congr 1
    by_cases e1 : j = i
    · subst e1; rw [t4, t5]
    · by_cases e2 : j = i + 1
      · subst e2; rw [t5, t4]
      · rw [t6 j e1 e2, t6 j e1 e2]
  · rw [r3]
    simpa only [Function.comp, t4, t5] using h

/-- Specification: p is the product of the transpositions (i, i+1) for the given i. -/
inductive AdjacentProduct : List Nat → Perm → Prop
  | nil : AdjacentProduct [] neutralPerm
  | snoc {is : List Nat} {p t r : Perm} {i : Nat} : AdjacentProduct is p → mkPerm (.cycles [[i, i + 1]]) = .ok t → p.mul t = .ok r →
      AdjacentProduct (is ++ [i]) r

theorem AdjacentProduct.spec {is : List Nat} {p : Perm} (h : AdjacentProduct is p) :
    Constructed p ∧ p.perilen = none ∧ p.inversionSet.length ≤ is.length := by
  induction h with
  | nil => exact ⟨constructed_neutral, rfl, Nat.le_refl _⟩
  | @snoc is p t r i _ ht hr ih =>
    obtain ⟨t', t1, t2, t3, _⟩ := mkPerm_adjacent i
    rw [ht] at t1
    cases t1
    obtain ⟨r', r1, r2, _, r4, _⟩ := mul_spec ih.1 t2 (Or.inr (Or.inr (by rw [ih.2.1, t3])))
    obtain ⟨t'', r'', u1, u2, u3, u4⟩ := C174_adjacent p ih.1 ih.2.1 i
    rw [ht] at u1
    cases u1
    rw [hr] at r1 u2
    cases r1
    cases u2
    refine ⟨r2, r4 ih.2.1 t3, ?_⟩
    have hne : p.get i ≠ p.get (i + 1) := fun e => by have := ih.1.wf.get_bijective.1 e; omega
    have h3 := ih.2.2
    rw [List.length_append, List.length_singleton]
    rcases Nat.lt_or_gt_of_ne hne with h | h
    · have := u3 h; omega
    · have := u4 h; omega

/-- **C174.** The number of inversions of a finite permutation is the smallest number of adjacent transpositions of which it is the product. -/
theorem C174_length (p : Perm) (hp : Constructed p) (hf : p.perilen = none) :
    (∃ is q, AdjacentProduct is q ∧ is.length = p.inversionSet.length ∧ ∀ i, q.get i = p.get i) ∧
    (∀ is q, AdjacentProduct is q → (∀ i, q.get i = p.get i) → p.inversionSet.length ≤ is.length) := by
  constructor
  · generalize hn : p.inversionSet.length = n
    induction n generalizing p with
    | zero =>
      have := (C174_neutral p hp hf).1 (List.length_eq_zero_iff.1 hn)
      rw [C05_neutral_iff p hp] at this
      exact ⟨[], _, .nil, rfl, fun i => by rw [this]; rfl⟩
    | succ n ih =>
      have hdesc : ∃ i, p.get (i + 1) < p.get i := by
        by_contra hc
        push Not at hc
        have hm := monotone_nat_of_le_succ hc
        have : p.inversionSet = [] := by
          rw [List.eq_nil_iff_forall_not_mem]
          rintro ⟨a, b⟩ hab
          rw [C16_inversion_set_mem p hp hf] at hab
          have := hm hab.1.le
          omega
        rw [this] at hn
        cases hn
      obtain ⟨i, hi⟩ := hdesc
      obtain ⟨t, t1, t2, t3, t4, t5, t6⟩ := mkPerm_adjacent i
      obtain ⟨r, r1, r2, r3, r4, _⟩ := mul_spec hp t2 (Or.inr (Or.inr (by rw [hf, t3])))
      obtain ⟨t', r', u1, u2, _, u4⟩ := C174_adjacent p hp hf i
      rw [t1] at u1
      cases u1
      rw [r1] at u2
      cases u2
      obtain ⟨is, q, q1, q2, q3⟩ := ih r r2 (r4 hf t3) (by have := u4 hi; omega)
      obtain ⟨qc, qf, _⟩ := q1.spec
      obtain ⟨s, s1, s2, s3, _⟩ := mul_spec qc t2 (Or.inr (Or.inr (by rw [qf, t3])))
      refine ⟨is ++ [i], s, .snoc q1 t1 s1, by rw [List.length_append, q2]; rfl, fun j => ?_⟩
      rw [s3]
      simp only [Function.comp]
      rw [q3, r3]
      simp only [Function.comp]
      congr 1
      by_cases e1 : j = i
      · subst e1; rw [t4, t5]
      · by_cases e2 : j = i + 1
        · subst e2; rw [t5, t4]
        · rw [t6 j e1 e2, t6 j e1 e2]
  · intro is q hq h
    obtain ⟨qc, qf, ql⟩ := hq.spec
    have : q.inversionSet.toFinset = p.inversionSet.toFinset := by
      ext ⟨a, b⟩
      rw [List.mem_toFinset, List.mem_toFinset, C16_inversion_set_mem p hp hf, C16_inversion_set_mem q qc qf, h, h]
    rw [card_inversionSet, ← this, ← card_inversionSet]
    exact ql

example : (do
    let p ← mkPerm (.seq [2, 0, 3, 1])
    let q ← mkPerm (.seq [0, 3, 1, 2])
    let r ← p.mul q
    return (p.inversionSet, (← p.inverse).inversionSet, q.inversionSet, r.inversionSet)) =
    .ok ([(0, 1), (0, 3), (2, 3)], [(0, 2), (1, 2), (1, 3)], [(1, 2), (1, 3)], [(0, 1), (0, 2), (1, 2)]) := by decide

/-- Five swaps of neighbours are needed to sort this list. -/
example : (mkPerm (.seq [3, 2, 0, 1])).map (fun p => p.inversionSet.length) = .ok 5 := by decide

end Verif.P
