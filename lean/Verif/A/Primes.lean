import Verif.Py.Lemmas
import Mathlib.Data.Nat.Factorization.Basic
import Mathlib.Data.Nat.Prime.Basic
import Mathlib.Algebra.BigOperators.Group.List.Basic

/-! # Model of a/prime_factors and a/inventory_dict; properties C24 and C56 -/

namespace Verif.A
open Verif.Py

/-! ## Model -/

/-- a/inventory_dict/__init__.py:17-21, the list case, for lists of naturals.  (The dict case, lines
23-28, does the same with the list of values.) -/
def inventoryDict (arg : List Nat) : Dict Nat Nat :=
  let values := sorted arg.dedup
  values.foldl (fun result value => result.set value (arg.count value)) []

/-- a/prime_factors/__init__.py:19-21; returns the new `n` and `factors`.  Fuel at least `n` is enough. -/
def divLoop : Nat → Nat → Nat → List Nat → Nat × List Nat
  | 0, _, n, factors => (n, factors)
  | f + 1, d, n, factors => if n % d = 0 then divLoop f d (n / d) (factors ++ [d]) else (n, factors)

/-- a/prime_factors/__init__.py:18-22; fuel at least `n` is enough. -/
def factorLoop : Nat → Nat → Nat → List Nat → Nat × List Nat
  | 0, _, n, factors => (n, factors)
  | f + 1, d, n, factors =>
    if d * d ≤ n then
      let nf := divLoop n d n factors
      factorLoop f (d + 1) nf.1 nf.2
    else (n, factors)

/-- a/prime_factors/__init__.py:16-26 -/
def factorsToExponents (n : Nat) : Dict Nat Nat :=
  let nf := factorLoop n 2 n []
  inventoryDict (if nf.1 > 1 then nf.2 ++ [nf.1] else nf.2)

/-- a/prime_factors/__init__.py:28-29, the call without `expected_factors`. -/
def primeFactors (n : Nat) : Dict Nat Nat := factorsToExponents n

/-- a/prime_factors/__init__.py:30-41, the call with `expected_factors`. -/
def primeFactorsExpected (n : Nat) (expected : List Nat) : Except Err (List Nat) :=
  let fe := factorsToExponents n
  if fe.keys.all (fun k => k ∈ expected) then
    .ok ((sorted expected.dedup).map (fun factor => (fe.get? factor).getD 0))
  else .error .unexpectedFactor

/-! ## Lemmas -/

theorem inventoryDict_eq (l : List Nat) :
    inventoryDict l = (sorted l.dedup).map (fun v => (v, l.count v)) := by
  unfold inventoryDict
  have h := Dict.ofPairs_of_nodup (l := (sorted l.dedup).map (fun v => (v, l.count v))) (by
    unfold Dict.keys
    rw [List.map_map]
    have : (Prod.fst ∘ fun v => (v, l.count v)) = id := rfl
    rw [this, List.map_id]
    exact (sorted_perm _).nodup_iff.2 (List.nodup_dedup l))
  unfold Dict.ofPairs at h
  rw [List.foldl_map] at h
  exact h

theorem keys_inventoryDict (l : List Nat) : (inventoryDict l).keys = sorted l.dedup := by
  rw [inventoryDict_eq]; unfold Dict.keys; rw [List.map_map]
  have : (Prod.fst ∘ fun v => (v, l.count v)) = id := rfl
  rw [this, List.map_id]

theorem get?_inventoryDict (l : List Nat) (k : Nat) :
    (inventoryDict l).get? k = if k ∈ l then some (l.count k) else none := by
  have hnd : (inventoryDict l).keys.Nodup := by
    rw [keys_inventoryDict]; exact (sorted_perm _).nodup_iff.2 (List.nodup_dedup l)
  by_cases h : k ∈ l
  · rw [if_pos h]
    apply Dict.mem_get? hnd
    rw [inventoryDict_eq, List.mem_map]
    exact ⟨k, by rw [mem_sorted, List.mem_dedup]; exact h, rfl⟩
  · rw [if_neg h, Dict.get?_eq_none, keys_inventoryDict, mem_sorted, List.mem_dedup]; exact h

theorem divLoop_spec (f d n : Nat) (fs : List Nat) (hd : 2 ≤ d) (hn : 1 ≤ n) (hf : n ≤ f) :
    ∃ k m, divLoop f d n fs = (m, fs ++ List.replicate k d) ∧ n = d ^ k * m ∧ ¬ d ∣ m ∧ 1 ≤ m := by
  induction f generalizing n fs with
  | zero => omega
  | succ f ih =>
    unfold divLoop
    by_cases h : n % d = 0
    · rw [if_pos h]
      have hdn := Nat.dvd_of_mod_eq_zero h
      obtain ⟨q, rfl⟩ := hdn
      have hq : 1 ≤ q := by
        rcases Nat.eq_zero_or_pos q with h0 | h0
        · subst h0; simp at hn
        · exact h0
      rw [Nat.mul_div_cancel_left _ (by omega)]
      have hlt : q < d * q := by
        calc q < 2 * q := by omega
          _ ≤ d * q := Nat.mul_le_mul_right _ hd
      obtain ⟨k, m, h1, h2, h3, h4⟩ := ih q (fs ++ [d]) hq (by omega)
      refine ⟨k + 1, m, ?_, ?_, h3, h4⟩
      · rw [h1, List.append_assoc]; rfl
      · rw [Nat.pow_succ, h2]; simp only [Nat.mul_comm, Nat.mul_left_comm]
    · rw [if_neg h]
      exact ⟨0, n, by simp, by simp, fun hdv => h (Nat.mod_eq_zero_of_dvd hdv), hn⟩

theorem factorLoop_spec (f d n : Nat) (fs : List Nat) (hd : 2 ≤ d) (hn : 1 ≤ n) (hf : n + 1 ≤ f + d)
    (hp : ∀ p, p.Prime → p ∣ n → d ≤ p) :
    ∃ m gs, factorLoop f d n fs = (m, fs ++ gs) ∧ (gs.prod * m = n) ∧ (∀ p ∈ gs, p.Prime) ∧
      (1 < m → m.Prime) ∧ 1 ≤ m := by
  induction f generalizing d n fs with
  | zero =>
    refine ⟨n, [], by simp [factorLoop], by simp, by simp, ?_, hn⟩
    intro h1
    have := hp n.minFac (Nat.minFac_prime (by omega)) (Nat.minFac_dvd n)
    have := Nat.minFac_le hn
    omega
  | succ f ih =>
    unfold factorLoop
    by_cases h : d * d ≤ n
    · rw [if_pos h]
      obtain ⟨k, m, h1, h2, h3, h4⟩ := divLoop_spec n d n fs hd hn (Nat.le_refl _)
      simp only
      rw [h1]
      have hmn : m ≤ n := by rw [h2]; exact Nat.le_mul_of_pos_left _ (Nat.pow_pos (by omega))
      obtain ⟨m', gs, g1, g2, g3, g4, g5⟩ := ih (d + 1) m (fs ++ List.replicate k d) (by omega) h4 (by omega) (by
        intro p pp pd
        have h5 := hp p pp (by rw [h2]; exact Dvd.dvd.mul_left pd _)
        have : p ≠ d := by rintro rfl; exact h3 pd
        omega)
      refine ⟨m', List.replicate k d ++ gs, ?_, ?_, ?_, g4, g5⟩
      · rw [g1, List.append_assoc]
      · rw [List.prod_append, List.prod_replicate, Nat.mul_assoc, g2, ← h2]
      · intro p hpm
        rcases List.mem_append.1 hpm with h5 | h5
        · obtain ⟨hk, rfl⟩ := List.mem_replicate.1 h5
          have hdn : p ∣ n := by
            rw [h2]
            exact Dvd.dvd.mul_right (dvd_pow_self p hk) _
          have := hp p.minFac (Nat.minFac_prime (by omega)) ((Nat.minFac_dvd p).trans hdn)
          have h6 := Nat.minFac_le (by omega : 0 < p)
          have h7 : p.minFac = p := by omega
          rw [← h7]; exact Nat.minFac_prime (by omega)
        · exact g3 p h5
    · rw [if_neg h]
      refine ⟨n, [], by simp, by simp, by simp, ?_, hn⟩
      intro h1
      have h5 := hp n.minFac (Nat.minFac_prime (by omega)) (Nat.minFac_dvd n)
      by_contra hnp
      have h6 := Nat.minFac_sq_le_self (by omega : 0 < n) hnp
      rw [Nat.pow_two] at h6
      exact h (le_trans (Nat.mul_le_mul h5 h5) h6)

theorem factors_spec (n : Nat) (hn : 1 ≤ n) :
    ∃ l : List Nat, factorsToExponents n = inventoryDict l ∧ l.Perm n.primeFactorsList := by
  obtain ⟨m, gs, h1, h2, h3, h4, h5⟩ := factorLoop_spec n 2 n [] (by omega) hn (by omega) (fun p pp _ => pp.two_le)
  refine ⟨if m > 1 then gs ++ [m] else gs, ?_, ?_⟩
  · unfold factorsToExponents
    simp only
    rw [h1]; simp
  · apply Nat.primeFactorsList_unique
    · split
      · rw [List.prod_append]; simpa using h2
      · have : m = 1 := by omega
        rw [this, Nat.mul_one] at h2; exact h2
    · split
      · intro p hp
        rcases List.mem_append.1 hp with h | h
        · exact h3 p h
        · rw [List.mem_singleton.1 h]; exact h4 (by omega)
      · exact h3

/-! ## C56 -/

/-- The keys of `inventory_dict` are the different entries in ascending order, the values say how often
they occur. -/
theorem C56_inventory_dict (l : List Nat) :
    (inventoryDict l).keys.Pairwise (· < ·) ∧
    (∀ k v, (inventoryDict l).get? k = some v ↔ v = l.count k ∧ 0 < v) ∧
    (inventoryDict l).values.sum = l.length := by
  refine ⟨?_, ?_, ?_⟩
  · rw [keys_inventoryDict]
    have h1 := sorted_pairwise l.dedup
    have h2 : (sorted l.dedup).Nodup := (sorted_perm _).nodup_iff.2 (List.nodup_dedup l)
    exact h1.imp₂ (fun a b h h' => lt_of_le_of_ne h h') h2
  · intro k v
    rw [get?_inventoryDict]
    by_cases h : k ∈ l
    · rw [if_pos h, Option.some.injEq]
      have := List.count_pos_iff.2 h
      constructor
      · rintro rfl; exact ⟨rfl, this⟩
      · rintro ⟨rfl, _⟩; rfl
    · rw [if_neg h]
      have := List.count_eq_zero_of_not_mem h
      constructor
      · intro h; cases h
      · rintro ⟨rfl, h2⟩; omega
  · rw [inventoryDict_eq]
    unfold Dict.values
    rw [List.map_map]
    have h1 : ((sorted l.dedup).map (Prod.snd ∘ fun v => (v, l.count v))).Perm (l.dedup.map (fun v => l.count v)) :=
      (sorted_perm _).map _
    rw [h1.sum_eq]
    exact List.sum_map_count_dedup_eq_length l

example : inventoryDict [5, 2, 5, 7, 2, 5] = [(2, 2), (5, 3), (7, 1)] := by decide

/-! ## C24 -/

/-- The keys are the prime factors in ascending order, the values the exponents in the prime
factorisation, and the product of the powers is `n`. -/
theorem C24_prime_factors (n : Nat) (hn : 1 ≤ n) :
    (∀ p e, (primeFactors n).get? p = some e ↔ p.Prime ∧ p ^ e ∣ n ∧ ¬ p ^ (e + 1) ∣ n ∧ 0 < e) ∧
    (primeFactors n).keys.Pairwise (· < ·) ∧
    ((primeFactors n).map (fun pe => pe.1 ^ pe.2)).prod = n := by
  obtain ⟨l, h1, h2⟩ := factors_spec n hn
  unfold primeFactors
  rw [h1]
  obtain ⟨c1, c2, c3⟩ := C56_inventory_dict l
  refine ⟨?_, c1, ?_⟩
  · intro p e
    rw [c2, h2.count_eq, Nat.primeFactorsList_count_eq]
    constructor
    · rintro ⟨rfl, h3⟩
      have hp : p.Prime := by
        by_contra hnp
        rw [Nat.factorization_eq_zero_of_not_prime _ hnp] at h3
        omega
      refine ⟨hp, Nat.ordProj_dvd n p, ?_, h3⟩
      exact Nat.pow_succ_factorization_not_dvd (by omega) hp
    · rintro ⟨hp, h3, h4, h5⟩
      refine ⟨?_, h5⟩
      have a := (hp.pow_dvd_iff_le_factorization (by omega)).1 h3
      have b : ¬ e + 1 ≤ n.factorization p := fun h => h4 ((hp.pow_dvd_iff_le_factorization (by omega)).2 h)
      omega
  · rw [inventoryDict_eq, List.map_map]
    have h3 : ((sorted l.dedup).map ((fun pe : Nat × Nat => pe.1 ^ pe.2) ∘ fun v => (v, l.count v))).Perm
        (l.dedup.map (fun v => v ^ l.count v)) := (sorted_perm _).map _
    have h4 : (l.dedup.map (fun v => v ^ l.count v)).prod = l.prod := by
      rw [Finset.prod_list_count l, ← List.prod_toFinset _ (List.nodup_dedup l)]
      apply Finset.prod_congr _ (fun _ _ => rfl)
      ext x; simp
    rw [h3.prod_eq, h4, h2.prod_eq, Nat.prod_primeFactorsList (by omega)]

theorem C24_expected (n : Nat) (hn : 1 ≤ n) (expected : List Nat) :
    ((∀ p, p.Prime → p ∣ n → p ∈ expected) →
      primeFactorsExpected n expected = .ok ((sorted expected.dedup).map (fun p => n.factorization p))) ∧
    ((∃ p, p.Prime ∧ p ∣ n ∧ p ∉ expected) → primeFactorsExpected n expected = .error .unexpectedFactor) := by
  obtain ⟨l, h1, h2⟩ := factors_spec n hn
  unfold primeFactorsExpected
  rw [h1]
  simp only
  have hmem : ∀ k, k ∈ (inventoryDict l).keys ↔ k.Prime ∧ k ∣ n := by
    intro k
    rw [keys_inventoryDict, mem_sorted, List.mem_dedup, h2.mem_iff, Nat.mem_primeFactorsList (by omega)]
  constructor
  · intro h
    rw [if_pos]
    · congr 1
      apply List.map_congr_left
      intro p _
      rw [get?_inventoryDict]
      by_cases hp : p ∈ l
      · rw [if_pos hp, h2.count_eq, Nat.primeFactorsList_count_eq]; rfl
      · rw [if_neg hp, ← Nat.primeFactorsList_count_eq, ← h2.count_eq, List.count_eq_zero_of_not_mem hp]; rfl
    · rw [List.all_eq_true]
      intro k hk
      have := (hmem k).1 hk
      simpa using h k this.1 this.2
  · rintro ⟨p, p1, p2, p3⟩
    rw [if_neg]
    rw [List.all_eq_true]
    intro h
    have := h p ((hmem p).2 ⟨p1, p2⟩)
    exact p3 (by simpa using this)

example : primeFactors 360 = [(2, 3), (3, 2), (5, 1)] ∧ primeFactorsExpected 360 [7, 5, 3, 2] = .ok [3, 2, 1, 0] ∧
    primeFactorsExpected 360 [2, 3] = .error .unexpectedFactor := by decide

end Verif.A
