import Verif.Perm.Props3
import Mathlib.GroupTheory.Perm.Fin
import Mathlib.Algebra.BigOperators.Fin

/-! # Property C16: inversion sets and parity -/

namespace Verif.P
open Verif.Py

theorem mem_combinations (n a b : Nat) :
    (a, b) ∈ ((List.range n).flatMap fun a => (List.range' (a + 1) (n - (a + 1))).map fun b => (a, b)) ↔
      a < b ∧ b < n := by
  simp only [List.mem_flatMap, List.mem_range, List.mem_map, List.mem_range'_1, Prod.mk.injEq]
  constructor
  · rintro ⟨x, hx, y, hy, rfl, rfl⟩; omega
  · rintro ⟨h1, h2⟩; exact ⟨a, by omega, b, by omega, rfl, rfl⟩

theorem nodup_combinations (n : Nat) :
    ((List.range n).flatMap fun a => (List.range' (a + 1) (n - (a + 1))).map fun b => (a, b)).Nodup := by
  rw [List.nodup_flatMap]
  refine ⟨fun a _ => (List.nodup_range' ).map (fun x y h => by simpa using h), ?_⟩
  apply List.Pairwise.imp_of_mem (R := fun a b : Nat => a ≠ b) _ List.nodup_range
  intro a b _ _ hab
  simp only [Function.onFun, List.disjoint_left, List.mem_map]
  rintro ⟨u, v⟩ ⟨y, _, h1⟩ ⟨z, _, h2⟩
  rw [Prod.mk.injEq] at h1 h2
  omega

theorem nodup_inversionSet (p : Perm) : p.inversionSet.Nodup := (nodup_combinations _).filter _

/-- For a finite permutation the inversion set consists of exactly the pairs in wrong order. -/
theorem C16_inversion_set_mem (p : Perm) (hp : Constructed p) (hf : p.perilen = none) (a b : Nat) :
    (a, b) ∈ p.inversionSet ↔ a < b ∧ p.get b < p.get a := by
  unfold Perm.inversionSet
  rw [List.mem_filter, mem_combinations]
  have hb := hp.wf.maps_below p.length (Or.inl ⟨hf, Nat.le_refl _⟩)
  constructor
  · rintro ⟨⟨h1, _⟩, h3⟩; exact ⟨h1, by simpa using h3⟩
  · rintro ⟨h1, h2⟩
    refine ⟨⟨h1, ?_⟩, by simpa using h2⟩
    by_contra hge
    rw [hp.wf.finite_bounded hf (by omega : p.length ≤ b)] at h2
    by_cases ha : a < p.length
    · have := hb a ha; omega
    · rw [hp.wf.finite_bounded hf (by omega : p.length ≤ a)] at h2; omega

/-! ## The counting dictionary -/

theorem count_foldl (pairs : List (Nat × Nat)) (key : Nat × Nat → Nat) (d : Dict Nat Nat) (k : Nat) :
    ((pairs.foldl (fun d ab => d.set (key ab) ((d.get? (key ab)).getD 0 + 1)) d).get? k).getD 0 =
      (d.get? k).getD 0 + pairs.countP (fun ab => key ab = k) := by
  induction pairs generalizing d with
  | nil => simp
  | cons x xs ih =>
    rw [List.foldl_cons, ih, Dict.get?_set, List.countP_cons]
    by_cases h : key x = k <;> simp [h]
    omega

theorem count_nodup (pairs : List (Nat × Nat)) (key : Nat × Nat → Nat) (d : Dict Nat Nat) (hd : (Dict.keys d).Nodup) :
    (Dict.keys (pairs.foldl (fun d ab => d.set (key ab) ((d.get? (key ab)).getD 0 + 1)) d)).Nodup := by
  induction pairs generalizing d with
  | nil => exact hd
  | cons x xs ih => exact ih _ (Dict.nodup_keys_set hd _ _)

theorem setAll_getElem (d : Dict Nat Nat) (hd : (Dict.keys d).Nodup) (v : List Nat) (k : Nat) (hk : k < v.length) :
    (d.foldl (fun v kc => v.set kc.1 kc.2) v)[k]? = some ((d.get? k).getD (v[k]?.getD 0)) := by
  induction d generalizing v with
  | nil => simp [hk]
  | cons x d ih =>
    obtain ⟨a, b⟩ := x
    simp only [Dict.keys_cons, List.nodup_cons] at hd
    rw [List.foldl_cons, ih hd.2 _ (by simpa using hk), Dict.get?_cons]
    by_cases h : a = k
    · subst h
      rw [Dict.get?_eq_none.2 hd.1]
      simp [hk]
    · simp [h, List.getElem?_set_ne h]

theorem setAll_length (d : Dict Nat Nat) (v : List Nat) :
    (d.foldl (fun v kc => v.set kc.1 kc.2) v).length = v.length := by
  induction d generalizing v with
  | nil => rfl
  | cons x d ih => rw [List.foldl_cons, ih]; simp

theorem maxPair_spec (pairs : List (Nat × Nat)) (l n : Nat) :
    pairs.foldl (fun l ab => max (max l (ab.1 + 1)) (ab.2 + 1)) l ≤ n ↔
      l ≤ n ∧ ∀ ab ∈ pairs, ab.1 < n ∧ ab.2 < n := by
  induction pairs generalizing l with
  | nil => simp
  | cons x xs ih =>
    rw [List.foldl_cons, ih]
    simp only [List.mem_cons, forall_eq_or_imp]
    constructor
    · rintro ⟨h1, h2⟩; exact ⟨by omega, ⟨by omega, by omega⟩, h2⟩
    · rintro ⟨h1, h2, h3⟩; exact ⟨by omega, h3⟩

theorem countP_inversions (p : Perm) (hp : Constructed p) (hf : p.perilen = none) (j : Nat) :
    p.inversionSet.countP (fun ab => ab.2 = j) = (List.range j).countP (fun k => decide (p.get k > p.get j)) := by
  rw [List.countP_eq_length_filter, List.countP_eq_length_filter]
  have : (p.inversionSet.filter (fun ab => ab.2 = j)).Perm
      (((List.range j).filter (fun k => decide (p.get k > p.get j))).map (fun k => (k, j))) := by
    rw [List.perm_ext_iff_of_nodup ((nodup_inversionSet p).filter _)
      ((List.nodup_range.filter _).map (fun a b h => by simpa using h))]
    rintro ⟨a, b⟩
    simp only [List.mem_filter, C16_inversion_set_mem p hp hf, List.mem_map, List.mem_range, decide_eq_true_eq,
      Prod.mk.injEq]
    constructor
    · rintro ⟨⟨h1, h2⟩, rfl⟩; exact ⟨a, ⟨h1, h2⟩, rfl, rfl⟩
    · rintro ⟨x, ⟨h1, h2⟩, rfl, rfl⟩; exact ⟨⟨h1, h2⟩, rfl⟩
  rw [this.length_eq, List.length_map]

theorem countP_inversions_right (p : Perm) (hp : Constructed p) (hf : p.perilen = none) (j : Nat) :
    p.inversionSet.countP (fun ab => ab.1 = j) =
      (List.range' j (p.length - j)).countP (fun k => decide (p.get k < p.get j)) := by
  rw [List.countP_eq_length_filter, List.countP_eq_length_filter]
  have : (p.inversionSet.filter (fun ab => ab.1 = j)).Perm
      (((List.range' j (p.length - j)).filter (fun k => decide (p.get k < p.get j))).map (fun k => (j, k))) := by
    rw [List.perm_ext_iff_of_nodup ((nodup_inversionSet p).filter _)
      (((List.nodup_range' (s := j) (n := p.length - j)).filter _).map (fun x y h => by simpa using h))]
    rintro ⟨a, b⟩
    simp only [List.mem_filter, List.mem_map, decide_eq_true_eq, List.mem_range'_1, Prod.mk.injEq]
    constructor
    · rintro ⟨h1, h2⟩
      have h3 := (C16_inversion_set_mem p hp hf a b).1 h1
      have h4 : b < p.length := by
        unfold Perm.inversionSet at h1
        rw [List.mem_filter, mem_combinations] at h1
        exact h1.1.2
      subst h2
      exact ⟨b, ⟨by omega, h3.2⟩, rfl, rfl⟩
    · rintro ⟨x, ⟨h1, h2⟩, rfl, rfl⟩
      refine ⟨(C16_inversion_set_mem p hp hf j x).2 ⟨?_, h2⟩, rfl⟩
      have : j ≠ x := by rintro rfl; omega
      omega
  rw [this.length_eq, List.length_map]

/-- The length found from the pairs is the length of the permutation. -/
theorem inversionSet_length (p : Perm) (hp : Constructed p) (hf : p.perilen = none)
    (pairs : List (Nat × Nat)) (h : pairs.Perm p.inversionSet) :
    pairs.foldl (fun l ab => max (max l (ab.1 + 1)) (ab.2 + 1)) 0 = p.length := by
  apply Nat.le_antisymm
  · rw [maxPair_spec]
    refine ⟨Nat.zero_le _, ?_⟩
    rintro ⟨a, b⟩ hab
    have := h.mem_iff.1 hab
    unfold Perm.inversionSet at this
    rw [List.mem_filter, mem_combinations] at this
    simp only; omega
  · by_contra hlt
    have h0 : 0 < p.length := by omega
    have h2 := (maxPair_spec pairs 0 (p.length - 1)).1 (by omega)
    have hm := last_moved hp hf h0
    have hb := hp.wf.maps_below p.length (Or.inl ⟨hf, Nat.le_refl _⟩)
    obtain ⟨a, ha⟩ := hp.wf.get_bijective.2 (p.length - 1)
    have ha2 : a < p.length := by
      by_contra hge
      rw [hp.wf.finite_bounded hf (by omega)] at ha; omega
    have ha3 : a ≠ p.length - 1 := by rintro rfl; exact hm ha
    have hb1 := hb (p.length - 1) (by omega)
    have := (C16_inversion_set_mem p hp hf a (p.length - 1)).2 ⟨by omega, by rw [ha]; omega⟩
    have := (h2.2 _ (h.mem_iff.2 this)).2
    simp only at this; omega

/-- Whatever the iteration order of the set, the inversion set of a finite permutation gives its left inversion count
and, in the other variant, its right inversion count. -/
theorem C16_inversion_set_to_count (p : Perm) (hp : Constructed p) (hf : p.perilen = none)
    (pairs : List (Nat × Nat)) (h : pairs.Perm p.inversionSet) :
    ∃ s, p.sequence = .ok s ∧ inversionSetToCount pairs true = leftInversionCount s ∧
      inversionSetToCount pairs false = rightInversionCount s := by
  have hlen := inversionSet_length p hp hf pairs h
  refine ⟨_, sequence_finite hf, ?_, ?_⟩
  · unfold inversionSetToCount
    simp only [if_true]
    rw [hlen]
    apply List.ext_getElem?
    intro j
    by_cases hj : j < p.length
    · rw [setAll_getElem _ (count_nodup pairs (fun ab => ab.2) [] (by simp)) _ _ (by simpa using hj)]
      have hc := count_foldl pairs (fun ab => ab.2) [] j
      rw [h.countP_eq, countP_inversions p hp hf] at hc
      have : ((List.replicate p.length 0)[j]?).getD 0 = 0 := by simp [hj]
      rw [this, hc]
      simp only [leftInversionCount, List.length_map, List.length_range, List.getElem?_map, List.getElem?_range hj,
        Option.map_some, Option.some.injEq, Dict.get?_nil, Option.getD_none, Nat.zero_add]
      apply List.countP_congr
      intro k hk
      have hk' : k < p.length := by have := List.mem_range.1 hk; omega
      simp [List.getD, hj, hk']
    · rw [List.getElem?_eq_none (by rw [setAll_length]; simpa using hj),
        List.getElem?_eq_none (by simpa [leftInversionCount] using hj)]
  · unfold inversionSetToCount
    simp only [Bool.false_eq_true, if_false]
    rw [hlen]
    apply List.ext_getElem?
    intro j
    by_cases hj : j < p.length
    · rw [setAll_getElem _ (count_nodup pairs (fun ab => ab.1) [] (by simp)) _ _ (by simpa using hj)]
      have hc := count_foldl pairs (fun ab => ab.1) [] j
      rw [h.countP_eq, countP_inversions_right p hp hf] at hc
      have : ((List.replicate p.length 0)[j]?).getD 0 = 0 := by simp [hj]
      rw [this, hc]
      simp only [rightInversionCount, List.length_map, List.length_range, List.getElem?_map, List.getElem?_range hj,
        Option.map_some, Option.some.injEq, Dict.get?_nil, Option.getD_none, Nat.zero_add]
      apply List.countP_congr
      intro k hk
      have hk' : k < p.length := by have := List.mem_range'_1.1 hk; omega
      simp [List.getD, hj, hk']
    · rw [List.getElem?_eq_none (by rw [setAll_length]; simpa using hj),
        List.getElem?_eq_none (by simpa [rightInversionCount] using hj)]

/-- Whatever the iteration order of the set, the permutation is found again. -/
theorem C16_inversion_set_roundtrip (p : Perm) (hp : Constructed p) (hf : p.perilen = none)
    (pairs : List (Nat × Nat)) (h : pairs.Perm p.inversionSet) :
    ∃ s, p.sequence = .ok s ∧ inversionSetToPermutation pairs = .ok s := by
  obtain ⟨s, h1, h2, _⟩ := C16_inversion_set_to_count p hp hf pairs h
  refine ⟨s, h1, ?_⟩
  unfold inversionSetToPermutation
  rw [sequence_finite hf] at h1
  cases h1
  rw [h2]
  exact C14_left_decode _ (sequence_perm hp hf)

example : (mkPerm (.seq [1, 3, 0, 2])).map Perm.inversionSet = .ok [(0, 2), (1, 2), (1, 3)] := by decide
example : inversionSetToCount [(1, 2), (0, 2), (1, 3)] false = rightInversionCount [1, 3, 0, 2] := by decide
example : inversionSetToPermutation [(1, 2), (0, 2), (1, 3)] = .ok [1, 3, 0, 2] := by decide

/-! ## Parity -/

/-- The restriction of a bijection of the naturals to the numbers below `N`. -/
noncomputable def finPerm (f : Nat → Nat) (N : Nat) (hi : Function.Injective f) (hb : ∀ i < N, f i < N) : Equiv.Perm (Fin N) :=
  Equiv.ofBijective (fun i => (⟨f i, hb i i.2⟩ : Fin N)) (by
    rw [Finite.injective_iff_bijective.symm]
    intro a b h
    exact Fin.ext (hi (by simpa using h)))

theorem finPerm_apply (f : Nat → Nat) (N : Nat) (hi hb) (i : Fin N) : ((finPerm f N hi hb) i : Nat) = f i := rfl

theorem sign_eq_card {N : Nat} (σ : Equiv.Perm (Fin N)) :
    Equiv.Perm.sign σ =
      (-1) ^ (Finset.univ.filter (fun x : Fin N × Fin N => x.1 < x.2 ∧ σ x.2 < σ x.1)).card := by
  rw [Equiv.Perm.sign_eq_prod_prod_Ioi]
  have : ∀ i : Fin N, ∏ j ∈ Finset.Ioi i, (if σ i < σ j then (1 : ℤˣ) else -1) =
      (-1) ^ (∑ j : Fin N, if i < j ∧ σ j < σ i then 1 else 0) := by
    intro i
    rw [← Finset.prod_pow_eq_pow_sum]
    rw [← Finset.prod_filter_mul_prod_filter_not Finset.univ (fun j => i < j)]
    have h1 : ∏ j ∈ Finset.univ.filter (fun j => ¬ i < j), (-1 : ℤˣ) ^ (if i < j ∧ σ j < σ i then 1 else 0) = 1 := by
      apply Finset.prod_eq_one
      intro j hj
      simp only [Finset.mem_filter, Finset.mem_univ, true_and] at hj
      simp [hj]
    rw [h1, mul_one]
    have h2 : Finset.univ.filter (fun j => i < j) = Finset.Ioi i := by ext; simp
    rw [h2]
    apply Finset.prod_congr rfl
    intro j hj
    have hij : i < j := by simpa using hj
    have hne : σ i ≠ σ j := fun h => absurd (σ.injective h) (ne_of_lt hij)
    by_cases h : σ i < σ j
    · have : ¬ σ j < σ i := not_lt.2 (le_of_lt h)
      simp [h, this]
    · have : σ j < σ i := lt_of_le_of_ne (not_lt.1 h) (Ne.symm hne)
      simp [h, this, hij]
  rw [Finset.prod_congr rfl (fun i _ => this i), Finset.prod_pow_eq_pow_sum]
  congr 1
  rw [Finset.card_filter, Fintype.sum_prod_type]

/-- The sign of the restriction to `N` places is minus one to the number of inversions. -/
theorem sign_inversionSet {p : Perm} (hp : Constructed p) (hf : p.perilen = none) {N : Nat} (hN : p.length ≤ N) (hi hb) :
    Equiv.Perm.sign (finPerm p.get N hi hb) = (-1) ^ p.inversionSet.length := by
  rw [sign_eq_card]
  congr 1
  rw [← List.toFinset_card_of_nodup (nodup_inversionSet p)]
  rw [← Finset.card_image_of_injective (f := fun x : Fin N × Fin N => ((x.1 : Nat), (x.2 : Nat)))]
  · congr 1
    ext ⟨a, b⟩
    simp only [Finset.mem_image, Finset.mem_filter, Finset.mem_univ, true_and, Prod.exists, Prod.mk.injEq,
      List.mem_toFinset]
    constructor
    · rintro ⟨x, y, ⟨h1, h2⟩, rfl, rfl⟩
      exact (C16_inversion_set_mem p hp hf _ _).2 ⟨h1, h2⟩
    · intro h
      have hlt := h
      unfold Perm.inversionSet at hlt
      rw [List.mem_filter, mem_combinations] at hlt
      have h3 := (C16_inversion_set_mem p hp hf _ _).1 h
      exact ⟨⟨a, by omega⟩, ⟨b, by omega⟩, ⟨h3.1, h3.2⟩, rfl, rfl⟩
  · rintro ⟨a, b⟩ ⟨c, d⟩ h
    simp only [Prod.mk.injEq] at h
    exact Prod.ext (Fin.ext h.1) (Fin.ext h.2)

theorem neg_one_pow_inj (m n : Nat) : ((-1 : ℤˣ) ^ m = (-1) ^ n) ↔ m % 2 = n % 2 := by
  rw [← Nat.div_add_mod m 2, ← Nat.div_add_mod n 2, pow_add, pow_add, pow_mul, pow_mul]
  rcases Nat.mod_two_eq_zero_or_one m with h | h <;> rcases Nat.mod_two_eq_zero_or_one n with h' | h' <;>
    simp [h, h', Nat.add_mod]

/-- Parity is that of Mathlib's sign of the restriction to any sufficiently long range. -/
theorem C16_parity_sign (p : Perm) (hp : Constructed p) (hf : p.perilen = none) (N : Nat) (hN : p.length ≤ N) (hi hb) :
    p.parity < 2 ∧ Equiv.Perm.sign (finPerm p.get N hi hb) = (-1) ^ p.parity := by
  refine ⟨Nat.mod_lt _ (by omega), ?_⟩
  rw [sign_inversionSet hp hf hN, neg_one_pow_inj, Perm.parity, Nat.mod_mod]

theorem neg_one_pow_parity (p : Perm) : (-1 : ℤˣ) ^ p.inversionSet.length = (-1) ^ p.parity := by
  rw [neg_one_pow_inj, Perm.parity, Nat.mod_mod]

theorem C16_parity_mul (p q : Perm) (hp : Constructed p) (hq : Constructed q) (hpf : p.perilen = none)
    (hqf : q.perilen = none) : ∃ r, p.mul q = .ok r ∧ r.parity = (p.parity + q.parity) % 2 := by
  obtain ⟨r, r1, r2, r3, r4, _⟩ := mul_spec hp hq (Or.inr (Or.inr (by rw [hpf, hqf])))
  have hrf := r4 hpf hqf
  refine ⟨r, r1, ?_⟩
  obtain ⟨N, hN1, hN2, hN3⟩ : ∃ N, p.length ≤ N ∧ q.length ≤ N ∧ r.length ≤ N :=
    ⟨max p.length (max q.length r.length), by omega, by omega, by omega⟩
  have bp := hp.wf.maps_below N (Or.inl ⟨hpf, hN1⟩)
  have bq := hq.wf.maps_below N (Or.inl ⟨hqf, hN2⟩)
  have br := r2.wf.maps_below N (Or.inl ⟨hrf, hN3⟩)
  have ip := hp.wf.get_bijective.1
  have iq := hq.wf.get_bijective.1
  have ir := r2.wf.get_bijective.1
  have e : finPerm r.get N ir br = finPerm p.get N ip bp * finPerm q.get N iq bq := by
    ext i
    rw [Equiv.Perm.mul_apply, finPerm_apply, finPerm_apply, finPerm_apply, r3]; rfl
  have h := congrArg Equiv.Perm.sign e
  rw [Equiv.Perm.sign_mul, sign_inversionSet r2 hrf hN3, sign_inversionSet hp hpf hN1, sign_inversionSet hq hqf hN2,
    ← pow_add, neg_one_pow_inj] at h
  unfold Perm.parity
  rw [h]
  omega

theorem C16_parity_inverse (p : Perm) (hp : Constructed p) (hpf : p.perilen = none) :
    ∃ r, p.inverse = .ok r ∧ r.parity = p.parity := by
  obtain ⟨r, r1, r2, r3, _, r5, r6⟩ := inverse_spec hp
  refine ⟨r, r1, ?_⟩
  obtain ⟨s, s1, s2⟩ := C16_parity_mul p r hp r2 hpf (by rw [r3, hpf])
  have h1 : s.parity = 0 := by
    obtain ⟨s', t1, t2, t3, t4, _⟩ := mul_spec hp r2 (Or.inr (Or.inr (by rw [r3])))
    rw [s1] at t1
    cases t1
    have : s.neutral = true := by
      rw [C05_neutral_iff s t2]
      intro i; rw [t3]; exact r6 i
    have := (t2.wf.neutral_perilen this).2
    simp [Perm.parity, Perm.inversionSet, this]
  have h2 : p.parity < 2 := Nat.mod_lt _ (by omega)
  have h3 : r.parity < 2 := Nat.mod_lt _ (by omega)
  omega

example : (mkPerm (.seq [1, 3, 0, 2])).map Perm.parity = .ok 1 := by decide

end Verif.P
