import Verif.Boolf.Props7

/-!
# Properties C73 (foibles and quadrants), C74 (patrons and leaders)
-/

namespace Verif.BF
open Verif.Py Verif.BV Verif.P Verif.W
open Verif.A hiding Mat

/-! ### Numbers of true places -/

/-- the number of `i < 2 ** n` with `P i` -/
def countF (n : Nat) (P : Nat → Bool) : Nat := bsum ((List.range (2 ^ n)).map P)

theorem bsum_append (l m : List Bool) : bsum (l ++ m) = bsum l + bsum m := by
  unfold bsum; rw [List.map_append, List.sum_append]

theorem countF_succ (n : Nat) (P : Nat → Bool) : countF (n + 1) P = countF n P + countF n fun i => P (2 ^ n + i) := by
  unfold countF
  rw [two_pow_succ, List.range_add, List.map_append, bsum_append, List.map_map]
  rfl

theorem countF_congr {n : Nat} {P Q : Nat → Bool} (h : ∀ i < 2 ^ n, P i = Q i) : countF n P = countF n Q := by
  unfold countF
  congr 1
  apply List.map_congr_left
  intro i hi
  exact h i (List.mem_range.1 hi)

theorem countF_card (n : Nat) (P : Nat → Bool) : countF n P = ((Finset.range (2 ^ n)).filter fun i => P i = true).card := by
  unfold countF
  generalize 2 ^ n = m
  induction m with
  | zero => rfl
  | succ m ih =>
    rw [List.range_succ, List.map_append, bsum_append, ih, Finset.range_add_one, Finset.filter_insert]
    cases h : P m with
    | true => rw [if_pos rfl, Finset.card_insert_of_notMem (by simp)]; simp [bsum, h]
    | false => simp [bsum, h]

theorem xorSum_countF (n : Nat) (P : Nat → Bool) : xorSum ((List.range (2 ^ n)).map P) = decide (countF n P % 2 = 1) := by
  rw [xorSum_eq]
  apply decide_eq_decide.2
  unfold countF
  omega

theorem asc_length_le {A : List Nat} (hA : A.Pairwise (· < ·)) {n : Nat} (hn : ∀ x ∈ A, x < n) : A.length ≤ n := by
  have h1 : A.Nodup := hA.imp (fun h => by omega)
  have h2 : A ⊆ List.range n := fun x hx => List.mem_range.2 (hn x hx)
  have := (List.subperm_of_subset h1 h2).length_le
  simpa using this

/-- The number of true places in a table for more atoms. -/
theorem countF_map (n : Nat) (A : List Nat) (hA : A.Pairwise (· < ·)) (hn : ∀ x ∈ A, x < n) (g : Nat → Bool) :
    countF n (fun i => g (valB (A.map i.testBit))) = 2 ^ (n - A.length) * countF A.length g := by
  induction n generalizing A g with
  | zero =>
    have : A = [] := List.eq_nil_iff_forall_not_mem.2 fun x hx => by have := hn x hx; omega
    subst this
    simp [countF, valB]
  | succ n ih =>
    have low : ∀ B : List Nat, (∀ x ∈ B, x < n) → ∀ i < 2 ^ n, B.map (2 ^ n + i).testBit = B.map i.testBit := by
      intro B hB i hi
      apply List.map_congr_left
      intro x hx
      rw [testBit_high hi, if_neg (by have := hB x hx; omega)]
    rw [countF_succ]
    by_cases hmem : n ∈ A
    · obtain ⟨B, rfl⟩ : ∃ B, A = B ++ [n] := by
        have hne : A ≠ [] := List.ne_nil_of_mem hmem
        refine ⟨A.dropLast, ?_⟩
        have hl : A.getLast hne = n := by
          by_contra hc
          obtain ⟨k, hk, e⟩ := List.mem_iff_getElem.1 hmem
          rw [List.getLast_eq_getElem] at hc
          have hk' : k < A.length - 1 := by
            by_contra hk'
            apply hc
            rw [← e]; congr 1; omega
          have h1 := List.pairwise_iff_getElem.1 hA k (A.length - 1) hk (by omega) hk'
          have h2 := hn _ (List.getElem_mem (by omega : A.length - 1 < A.length))
          omega
        rw [← hl, List.dropLast_append_getLast]
      have hB : ∀ x ∈ B, x < n := fun x hx => (List.pairwise_append.1 hA).2.2 x hx n (by simp)
      have hBa := (List.pairwise_append.1 hA).1
      have hle := asc_length_le hBa hB
      have e1 : countF n (fun i => g (valB ((B ++ [n]).map i.testBit))) = countF n fun i => g (valB (B.map i.testBit)) := by
        apply countF_congr
        intro i hi
        rw [List.map_append, valB_append, List.map_singleton, Nat.testBit_lt_two_pow hi]
        simp [valB]
      have e2 : countF n (fun i => g (valB ((B ++ [n]).map (2 ^ n + i).testBit))) = countF n fun i => (fun k => g (2 ^ B.length + k)) (valB (B.map i.testBit)) := by
        apply countF_congr
        intro i hi
        rw [List.map_append, valB_append, low B hB i hi, List.map_singleton, testBit_high hi, if_pos rfl, List.length_map]
        simp [valB, Nat.add_comm]
      rw [e1, e2, ih B hBa hB g, ih B hBa hB (fun k => g (2 ^ B.length + k)), List.length_append, List.length_singleton, countF_succ, ← Nat.mul_add]
      congr 2
      omega
    · have hB : ∀ x ∈ A, x < n := fun x hx => by
        have := hn x hx
        have : x ≠ n := fun h => hmem (h ▸ hx)
        omega
      have hle := asc_length_le hA hB
      rw [countF_congr (P := fun i => g (valB (A.map (2 ^ n + i).testBit))) (Q := fun i => g (valB (A.map i.testBit)))
        (fun i hi => by rw [low A hB i hi]), ih A hA hB g, show n + 1 - A.length = (n - A.length) + 1 by omega, Nat.pow_succ]
      ring

theorem root_weight {f : Boolf} (h : Sound f) : f.root.weight = countF f.atomvals.length fun k => f.root.vector.getD k false := by
  unfold Binv.weight countF bsum
  rw [← h.len]
  congr 2
  apply List.ext_getElem?
  intro i
  rw [List.getElem?_map]
  by_cases hi : i < f.root.vector.length
  · rw [List.getElem?_range hi, Option.map_some, List.getD_eq_getElem?_getD, List.getElem?_eq_getElem hi]; rfl
  · rw [List.getElem?_eq_none (by omega), List.getElem?_eq_none (by simpa using hi)]; rfl

/-- The number of true places in the table for `n` atoms. -/
theorem countF_eval {f : Boolf} (h : Sound f) {n : Nat} (hn : f.adicity ≤ n) :
    countF n (fun i => f.eval i.testBit) = 2 ^ (n - f.valency) * f.root.weight := by
  rw [root_weight h, h.val]
  exact countF_map n f.atomvals h.asc ((h.adic n).1 hn) fun k => f.root.vector.getD k false

theorem weight_map (n : Nat) (P : Nat → Bool) : (⟨(List.range (2 ^ n)).map P⟩ : Binv).weight = countF n P := rfl

/-! ## C73: foibles -/

open Classical in
/-- number of true places of a Boolean function below `2 ** n` -/
noncomputable def truePlaces (f : Boolf) (n : Nat) : Nat := ((Finset.range (2 ^ n)).filter fun i => f.getItem i = .ok true).card

theorem truePlaces_eq {f : Boolf} (h : Sound f) (n : Nat) : truePlaces f n = countF n fun i => f.eval i.testBit := by
  classical
  rw [countF_card]
  unfold truePlaces
  congr 1
  ext i
  simp [getItem_eq h]

theorem isSharp_eq {f : Boolf} (h : Sound f) {n : Nat} (hn : f.adicity ≤ n) :
    f.isSharp n = .ok (decide (countF n (fun i => f.eval i.testBit) % 2 = 1)) := by
  unfold Boolf.isSharp
  rw [tt_arity_eq h hn]
  simp only [bind, Except.bind, pure, Except.pure]
  rw [weight_map]
  congr 1
  apply decide_eq_decide.2
  omega

/-- **C73** What the foibles mean. -/
theorem C73_foibles (f : Boolf) (hf : Obj f) (n : Nat) (hn : f.adicity ≤ n) :
    ∃ odd odious, f.getItem 0 = .ok odd ∧ f.getItem ((2 ^ n - 1 : Nat) : Nat) = .ok odious ∧
      f.isOdd = .ok odd ∧ f.isOdious = .ok odious ∧ f.isUgly = .ok (odd ^^ odious) ∧
      f.isSharp n = .ok (decide (truePlaces f n % 2 = 1)) ∧
      f.isAcute n = .ok ((odd ^^ odious) ^^ decide (truePlaces f n % 2 = 1)) ∧
      f.isRude n = .ok (odd ^^ decide (truePlaces f n % 2 = 1)) ∧
      f.isRough n = .ok (odious ^^ decide (truePlaces f n % 2 = 1)) ∧
      f.quadrant = .ok (odd.toNat + 2 * odious.toNat) ∧
      f.weightQuadrant (some (n : Int)) = .ok ((odious ^^ decide (truePlaces f n % 2 = 1)).toNat + 2 * odious.toNat) ∧
      f.acuteQuadrant (some (n : Int)) = .ok ((odd ^^ odious).toNat + 2 * ((odd ^^ odious) ^^ decide (truePlaces f n % 2 = 1)).toNat) ∧
      f.octant (some (n : Int)) = .ok (odd.toNat + 2 * odious.toNat + 4 * ((odd ^^ odious) ^^ decide (truePlaces f n % 2 = 1)).toNat) := by
  have h := hf.good.toSound
  have h1 := isOdd_eq hf
  have h2 := isOdious_eq hf hn
  have h3 := isSharp_eq h hn
  rw [← truePlaces_eq h] at h3
  have h4 := quadrant_eq hf hn
  refine ⟨_, _, getItem_eq h _, getItem_eq h _, h1, h2, ?_, h3, ?_, ?_, ?_, h4, ?_, ?_, ?_⟩ <;>
    simp only [Boolf.isUgly, Boolf.isAcute, Boolf.isRude, Boolf.isRough, Boolf.weightQuadrant, Boolf.acuteQuadrant, Boolf.octant,
      Option.getD_some, h1, h2, h3, h4, bind, Except.bind, pure, Except.pure]

/-- **C73** Each additional atom doubles the number of true places; hence a function is sharp only for its own valency. -/
theorem C73_weight (f : Boolf) (hf : Obj f) (n : Nat) (hn : f.adicity ≤ n) :
    f.valency ≤ n ∧ truePlaces f n = 2 ^ (n - f.valency) * f.root.weight ∧
    (∃ t, f.tt (.arity n) = .ok t ∧ t.weight = truePlaces f n) ∧
    f.isSharp n = .ok (f.isMale && decide (n = f.valency)) := by
  have h := hf.good.toSound
  have hw : truePlaces f n = 2 ^ (n - f.valency) * f.root.weight := by rw [truePlaces_eq h, countF_eval h hn]
  have hv : f.valency ≤ n := by rw [h.val]; exact asc_length_le h.asc ((h.adic n).1 hn)
  refine ⟨hv, hw, ⟨_, tt_arity_eq h hn, by rw [weight_map, truePlaces_eq h]⟩, ?_⟩
  rw [isSharp_eq h hn, ← truePlaces_eq h, hw]
  unfold Boolf.isMale
  congr 1
  by_cases e : n = f.valency
  · subst e
    simp only [Nat.sub_self, Nat.pow_zero, Nat.one_mul, decide_true, Bool.and_true]
    apply decide_eq_decide.2
    omega
  · obtain ⟨d, hd⟩ : ∃ d, n - f.valency = d + 1 := ⟨n - f.valency - 1, by omega⟩
    have : 2 ^ (n - f.valency) * f.root.weight % 2 = 0 := by rw [hd, Nat.pow_succ, Nat.mul_assoc, Nat.mul_left_comm, Nat.mul_mod_right]
    rw [this]
    simp [e]

theorem subXor_last (n : Nat) (v : Nat → Bool) : subXor n v (2 ^ n - 1) = decide (countF n v % 2 = 1) := by
  rw [← xorSum_countF]
  unfold subXor
  congr 1
  apply List.map_congr_left
  intro i hi
  rw [show sub i (2 ^ n - 1) = true from sub_iff.2 fun k hk => ?_, Bool.and_true]
  rw [Nat.testBit_two_pow_sub_one]
  by_contra hc
  rw [testBit_of_lt (List.mem_range.1 hi) (by simpa using hc)] at hk
  cases hk

/-- **C73** The twin has the same first digit, and the foibles odious and sharp are exchanged. -/
theorem C73_twin (f : Boolf) (hf : Obj f) (n : Nat) (hn : f.adicity ≤ n) :
    ∃ g, f.twin (some (n : Int)) = .ok g ∧ g.isOdd = f.isOdd ∧ g.isOdious = f.isSharp n ∧ g.isSharp n = f.isOdious := by
  have h := hf.good.toSound
  obtain ⟨g, g1, g2, g3, g4, g5⟩ := twin_spec h hn
  have hp := Nat.two_pow_pos n
  refine ⟨g, g1, ?_, ?_, ?_⟩
  · rw [isOdd_eq g3.obj, isOdd_eq hf, g5 0 hp, subXor_at_zero]
  · rw [isOdious_eq g3.obj g4, isSharp_eq h hn, g5 _ (by omega), subXor_last]
  · rw [isOdious_eq hf hn, isSharp_eq g2.toSound g4, countF_congr g5, ← subXor_last, subXor_subXor _ _ (by omega)]

/-- **C73** Arities below the adicity are rejected. -/
theorem C73_rejected (f : Boolf) (n : Int) (hn : n < f.adicity) :
    f.isSharp n = .error (if n < 0 then .valueError else .argTooSmall) := by
  unfold Boolf.isSharp Boolf.tt
  by_cases h : n < 0
  · simp [h, bind, Except.bind]
  · simp [h, not_le.2 hn, bind, Except.bind]

/-! ## C74: patrons and leaders -/

/-- the Zhegalkin index for any sufficient arity -/
theorem zhe_any {f : Boolf} (h : Sound f) {n : Nat} (hn : f.adicity ≤ n) :
    ∃ z, f.zhe = .ok z ∧ z < 2 ^ 2 ^ n ∧ ∀ j < 2 ^ n, z.testBit j = subXor n (fun i => f.eval i.testBit) j := by
  obtain ⟨z, z1, z2, z3⟩ := zhe_spec h
  have hle : 2 ^ f.adicity ≤ 2 ^ n := Nat.pow_le_pow_right (by omega) hn
  refine ⟨z, z1, lt_of_lt_of_le z2 (Nat.pow_le_pow_right (by omega) hle), fun j hj => ?_⟩
  have e : ∀ i, f.eval i.testBit = subXor n z.testBit i := by
    intro i
    rw [subXor_extend hn (fun k hk => testBit_of_lt z2 hk), ← subXor_mod, subXor_congr z3,
      subXor_subXor _ _ (Nat.mod_lt _ (Nat.two_pow_pos _)), eval_mod h le_rfl]
  rw [subXor_congr (w := subXor n z.testBit) (fun i _ => e i), subXor_subXor _ _ hj]

theorem patronInt_spec {f : Boolf} (h : Sound f) {n : Nat} (hn : f.adicity ≤ n) :
    ∃ p, f.patronInt n = .ok p ∧ Noble n p ∧ ∀ j < 2 ^ n, p.testBit j = (f.eval j.testBit ^^ subXor n (fun i => f.eval i.testBit) j) := by
  obtain ⟨z, z1, z2, z3⟩ := zhe_any h hn
  have e : ∀ j < 2 ^ n, (valB ((List.range (2 ^ n)).map fun i => f.eval i.testBit) ^^^ z).testBit j =
      (f.eval j.testBit ^^ subXor n (fun i => f.eval i.testBit) j) := by
    intro j hj
    rw [Nat.testBit_xor, testBit_valB_range, z3 j hj]
    simp [hj]
  refine ⟨_, ?_, noble_iff.2 ⟨Nat.xor_lt_two_pow (valB_range_lt _ _) z2, fun j hj => ?_⟩, e⟩
  · unfold Boolf.patronInt
    rw [tt_arity_eq h hn, z1]
    simp only [bind, Except.bind, pure, Except.pure, intval_eq]
  · rw [e j hj, subXor_congr e, subXor_xor, subXor_subXor _ _ hj, Bool.xor_comm]

/-- A function that only depends on the first `n` atoms has at most the adicity `n`. -/
theorem adicity_le {f : Boolf} (hf : Canon f) {n : Nat} (h : ∀ a b : Nat → Bool, (∀ x < n, a x = b x) → f.eval a = f.eval b) : f.adicity ≤ n := by
  rw [hf.toSound.adic n]
  intro x hx
  by_contra hc
  rw [hf.mem_iff] at hx
  obtain ⟨a, ha⟩ := hx
  apply ha
  apply h
  intro y hy
  simp [upd, show y ≠ x by omega]

/-- **C74** The patron, as a number and as a Boolean function. -/
theorem C74_patron (f : Boolf) (hf : Obj f) (n : Nat) (hn : f.adicity ≤ n) :
    ∃ p g h t, f.patronInt n = .ok p ∧ f.twin (some (n : Int)) = .ok g ∧ f.patronBoolf n = .ok h ∧ h.tt (.arity n) = .ok t ∧
      t.intval = p ∧ Noble n p ∧ h.isNoble (some (n : Int)) = .ok true ∧
      (∀ key : Nat, ∃ u v, f.getItem key = .ok u ∧ g.getItem key = .ok v ∧ h.getItem key = .ok (u ^^ v)) ∧
      (p = 0 ↔ ∀ key : Nat, f.getItem key = g.getItem key) := by
  have hs := hf.good.toSound
  obtain ⟨p, p1, p2, p3⟩ := patronInt_spec hs hn
  obtain ⟨g, g1, g2, g3, g4, g5⟩ := twin_spec hs hn
  obtain ⟨h, h1, h2, h3⟩ := xor_spec hs g2.toSound
  have hA : h.adicity ≤ n := by
    apply adicity_le h2
    intro a b hab
    rw [h3, h3, Boolf.eval_congr fun x hx => hab x ((hs.adic n).1 hn x hx), Boolf.eval_congr fun x hx => hab x ((g2.toSound.adic n).1 g4 x hx)]
  have ht := tt_arity_eq h2.toSound hA
  have hp : valB ((List.range (2 ^ n)).map fun i => h.eval i.testBit) = p := by
    apply Nat.eq_of_testBit_eq
    intro j
    rw [testBit_valB_range]
    by_cases hj : j < 2 ^ n
    · rw [p3 j hj, h3, g5 j hj]; simp [hj]
    · rw [testBit_of_lt p2.1 (by omega)]; simp [hj]
  have hr : Reach h := h2.reach
  refine ⟨p, g, h, _, p1, g1, ?_, ht, by rw [intval_eq]; exact hp, p2, ?_, ?_, ?_⟩
  · unfold Boolf.patronBoolf
    rw [g1]; exact h1
  · rw [isNoble_spec hr hA]
    congr 1
    apply decide_eq_true
    intro j hj
    have e : ∀ i < 2 ^ n, h.eval i.testBit = p.testBit i := fun i hi => by rw [h3, g5 i hi, p3 i hi]
    rw [e j hj, subXor_congr e]
    exact (noble_iff.1 p2).2 j hj
  · exact fun key => ⟨_, _, getItem_eq hs _, getItem_eq g2.toSound _, by rw [getItem_eq h2.toSound, h3]⟩
  · constructor
    · rintro rfl key
      rw [getItem_eq hs, getItem_eq g2.toSound, ← eval_mod hs hn, ← eval_mod g2.toSound g4, g5 _ (Nat.mod_lt _ (Nat.two_pow_pos n))]
      have := p3 _ (Nat.mod_lt key (Nat.two_pow_pos n))
      rw [Nat.zero_testBit] at this
      revert this
      cases f.eval (key % 2 ^ n).testBit <;> cases subXor n (fun i => f.eval i.testBit) (key % 2 ^ n) <;> simp
    · intro he
      apply Nat.eq_of_testBit_eq
      intro j
      rw [Nat.zero_testBit]
      by_cases hj : j < 2 ^ n
      · have := he j
        rw [getItem_eq hs, getItem_eq g2.toSound, Except.ok.injEq, g5 j hj] at this
        rw [p3 j hj, ← this, Bool.xor_self]
      · exact testBit_of_lt p2.1 (by omega)

/-- **C74** For functions that are not inflated: the patron is 0 iff the function is noble. -/
theorem C74_patron_noble (f : Boolf) (hf : Reach f) (n : Nat) (hn : f.adicity ≤ n) :
    ∃ p b, f.patronInt n = .ok p ∧ f.isNoble (some (n : Int)) = .ok b ∧ (p = 0 ↔ b = true) := by
  obtain ⟨p, g, h, t, p1, g1, _, _, _, _, _, _, p2⟩ := C74_patron f hf.obj n hn
  obtain ⟨g', e1, _, e3, _⟩ := twin_spec hf.canon.toSound hn
  rw [g1] at e1
  obtain rfl := Except.ok.inj e1
  obtain ⟨b, _, b1, _, b2, _⟩ := (C72_is_noble f hf).1 n hn
  refine ⟨p, b, p1, b1, ?_⟩
  rw [p2, b2, g1, Except.ok.injEq]
  exact ⟨fun he => (hf.canon.ext_key e3.canon he).symm, fun he key => by rw [he]⟩

/-- **C74** Index, quadrant and royal of the patron. -/
theorem C74_patron_index (f : Boolf) (hf : Obj f) (m : Nat) (hn : f.adicity ≤ m + 1) :
    ∃ p i r odd rough, f.patronInt ((m + 1 : Nat) : Int) = .ok p ∧ f.patronIndex (m + 1) = .ok i ∧ indexToNoble i (m + 1) = .ok p ∧
      f.patronRoyal (m + 1) = .ok r ∧ nobleToRoyal p (m + 1) = .ok r ∧
      f.isOdd = .ok odd ∧ f.isRough ((m + 1 : Nat) : Int) = .ok rough ∧ f.patronQuadrant (m + 1) = .ok (odd.toNat + 2 * rough.toNat) := by
  have hs := hf.good.toSound
  obtain ⟨p, p1, p2, p3⟩ := patronInt_spec hs hn
  obtain ⟨i, _, i2, i3⟩ := (C72_noble_to_index m p).1 p2
  obtain ⟨r, q, r1, r2, _⟩ := C72_royal m p p2
  have hp : 1 < 2 ^ (m + 1) := Nat.one_lt_two_pow (by omega)
  have hrough : f.isRough ((m + 1 : Nat) : Int) =
      .ok (f.eval (2 ^ (m + 1) - 1).testBit ^^ subXor (m + 1) (fun i => f.eval i.testBit) (2 ^ (m + 1) - 1)) := by
    unfold Boolf.isRough
    rw [isOdious_eq hf hn, isSharp_eq hs hn, ← subXor_last]
    rfl
  refine ⟨p, i, r, _, _, p1, ?_, i3, ?_, r2, isOdd_eq hf, hrough, ?_⟩
  · unfold Boolf.patronIndex; rw [p1]; exact i2
  · unfold Boolf.patronRoyal; rw [p1]; exact r2
  · unfold Boolf.patronQuadrant
    rw [p1]
    simp only [bind, Except.bind]
    rw [nobleToQuadrant_spec p2, p3 1 hp, p3 _ (by omega)]
    have := subXor_at_pow (n := m + 1) (k := 0) (by omega) fun i => f.eval i.testBit
    rw [Nat.pow_zero] at this
    rw [this]
    congr 3
    cases f.eval (1 : Nat).testBit <;> cases f.eval (0 : Nat).testBit <;> rfl

/-- **C74** Arities below the adicity are rejected. -/
theorem C74_rejected (f : Boolf) (n : Nat) (hn : n < f.adicity) :
    f.patronInt n = .error .argTooSmall ∧ f.patronBoolf n = .error .assertion := by
  constructor
  · unfold Boolf.patronInt Boolf.tt
    simp only
    rw [if_neg (by omega), if_neg (by omega)]
    rfl
  · unfold Boolf.patronBoolf
    unfold Boolf.twin
    simp only
    rw [if_neg (by omega)]
    rfl

/-- twin, complement, twin: changes the first digit -/
theorem flip_spec {f : Boolf} (h : Sound f) {n : Nat} (hn : f.adicity ≤ n) :
    ∃ g c l, f.twin (some (n : Int)) = .ok g ∧ g.complement = .ok c ∧ c.twin (some (n : Int)) = .ok l ∧ Reach l ∧ l.adicity ≤ n ∧
      ∀ j < 2 ^ n, l.eval j.testBit = (f.eval j.testBit ^^ decide (j = 0)) := by
  obtain ⟨g, g1, g2, g3, g4, g5⟩ := twin_spec h hn
  obtain ⟨c, c1, c2, c3⟩ := complement_spec g2.toSound
  have hc : c.adicity ≤ n := adicity_le c2 fun a b hab => by
    rw [c3, c3, Boolf.eval_congr fun x hx => hab x ((g2.toSound.adic n).1 g4 x hx)]
  obtain ⟨l, l1, l2, l3, l4, l5⟩ := twin_spec c2.toSound hc
  refine ⟨g, c, l, g1, c1, l1, l3, l4, fun j hj => ?_⟩
  rw [l5 j hj, subXor_congr (w := fun i => subXor n (fun i => f.eval i.testBit) i ^^ true) (fun i hi => by rw [c3, g5 i hi, Bool.xor_true]),
    subXor_xor, subXor_subXor _ _ hj, subXor_true hj]

theorem complement_adicity {f c : Boolf} (h : Sound f) {n : Nat} (hn : f.adicity ≤ n) (hc : Canon c) (e : ∀ a, c.eval a = !f.eval a) : c.adicity ≤ n :=
  adicity_le hc fun a b hab => by rw [e, e, Boolf.eval_congr fun x hx => hab x ((h.adic n).1 hn x hx)]

/-- **C74** The leader is the function in quadrant 0 found by complementing (for odious functions) and changing the first digit (for ugly ones). -/
theorem C74_leader (f : Boolf) (hf : Obj f) (n : Nat) (hn : f.adicity ≤ n) :
    ∃ l odious ugly, f.leader (some (n : Int)) = .ok l ∧ Obj l ∧ l.adicity ≤ n ∧ l.quadrant = .ok 0 ∧
      f.isOdious = .ok odious ∧ f.isUgly = .ok ugly ∧
      ∀ j < 2 ^ n, ∃ v, f.getItem j = .ok v ∧ l.getItem j = .ok (v ^^ odious ^^ (ugly && decide (j = 0))) := by
  have h := hf.good.toSound
  have hp := Nat.two_pow_pos n
  have ho := isOdious_eq hf hn
  have hu : f.isUgly = .ok (f.eval (0 : Nat).testBit ^^ f.eval (2 ^ n - 1).testBit) := by
    unfold Boolf.isUgly; rw [isOdd_eq hf, ho]; rfl
  suffices hmain : ∃ l, f.leader (some (n : Int)) = .ok l ∧ Obj l ∧ l.adicity ≤ n ∧ ∀ j < 2 ^ n, l.eval j.testBit =
      (f.eval j.testBit ^^ f.eval (2 ^ n - 1).testBit ^^ ((f.eval (0 : Nat).testBit ^^ f.eval (2 ^ n - 1).testBit) && decide (j = 0))) by
    obtain ⟨l, l1, l2, l3, l4⟩ := hmain
    refine ⟨l, _, _, l1, l2, l3, ?_, ho, hu, fun j hj => ⟨_, getItem_eq h j, by rw [getItem_eq l2.good.toSound, l4 j hj]⟩⟩
    rw [quadrant_eq l2 l3, l4 0 hp, l4 _ (by omega)]
    by_cases e : 2 ^ n - 1 = 0
    · rw [e]; cases f.eval (0 : Nat).testBit <;> rfl
    · rw [decide_eq_false e]
      cases f.eval (0 : Nat).testBit <;> cases f.eval (2 ^ n - 1).testBit <;> rfl
  unfold Boolf.leader
  simp only [Option.getD_some, quadrant_eq hf hn, bind, Except.bind, pure, Except.pure]
  cases e0 : f.eval (0 : Nat).testBit <;> cases e1 : f.eval (2 ^ n - 1).testBit
  · exact ⟨f, rfl, hf, hn, fun j _ => by simp⟩
  · obtain ⟨c, c1, c2, c3⟩ := complement_spec h
    have hc := complement_adicity h hn c2 c3
    obtain ⟨g, d, l, g1, d1, l1, l2, l3, l4⟩ := flip_spec c2.toSound hc
    refine ⟨l, ?_, l2.obj, l3, fun j hj => ?_⟩
    · simp [c1, g1, d1, l1]
    · rw [l4 j hj, c3]; simp
  · obtain ⟨g, d, l, g1, d1, l1, l2, l3, l4⟩ := flip_spec h hn
    refine ⟨l, ?_, l2.obj, l3, fun j hj => ?_⟩
    · simp [g1, d1, l1]
    · rw [l4 j hj]; simp
  · obtain ⟨c, c1, c2, c3⟩ := complement_spec h
    refine ⟨c, ?_, c2.reach.obj, complement_adicity h hn c2 c3, fun j hj => ?_⟩
    · simp [c1]
    · rw [c3]; simp

/-- **C74** Which arities below the adicity are rejected when a leader is asked for. -/
theorem C74_leader_rejected (f : Boolf) (hf : Reach f) (n : Nat) (hn : n < f.adicity) :
    (f.isUgly = .ok true → f.leader (some (n : Int)) = .error .assertion) ∧
    (f.isUgly = .ok false → f.leader (some (n : Int)) = f.leader none) := by
  have h := hf.canon.toSound
  have hu : f.isUgly = .ok (f.eval (0 : Nat).testBit ^^ f.eval (2 ^ f.adicity - 1).testBit) := by
    unfold Boolf.isUgly; rw [isOdd_eq hf.obj, isOdious_eq hf.obj le_rfl]; rfl
  have ht := (C50_twin f hf).2.1 n (by exact_mod_cast hn)
  obtain ⟨c, c1, c2, c3⟩ := complement_spec h
  have hca : c.adicity = f.adicity := by
    apply le_antisymm (complement_adicity h le_rfl c2 c3)
    exact complement_adicity c2.toSound le_rfl hf.canon fun a => by rw [c3, Bool.not_not]
  have htc := (C50_twin c c2.reach).2.1 n (by rw [hca]; exact_mod_cast hn)
  unfold Boolf.leader
  simp only [Option.getD_some, quadrant_eq hf.obj le_rfl, bind, Except.bind, pure, Except.pure, hu]
  cases e0 : f.eval (0 : Nat).testBit <;> cases e1 : f.eval (2 ^ f.adicity - 1).testBit <;> simp [ht, c1, htc]

/-! ## Examples -/

/-- the conjunction of two atoms, which is male, odious and ugly -/
example : ∃ f, newTT (.list [0, 0, 0, 1]) = .ok f ∧ Reach f ∧ f.adicity = 2 ∧ f.isMale = true ∧ f.isOdious = .ok true ∧ f.isUgly = .ok true := by
  have h : newTT (.list [0, 0, 0, 1]) = .ok { atomvals := [0, 1], root := ⟨[false, false, false, true]⟩, adicity := 2, valency := 2 } := by decide
  exact ⟨_, h, reach_newTT h, rfl, by decide, by decide, by decide⟩

end Verif.BF
