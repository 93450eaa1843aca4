import Verif.Boolf.Walsh

/-! # Property C71: Walsh spectra -/

namespace Verif.BF
open Verif.Py Verif.BV Verif.P Verif.W
open Verif.A hiding Mat
open Finset

/-- the number of common binary digits -/
def overlap (i k : Nat) : Nat := ((range (i + k)).filter fun t => i.testBit t = true ∧ k.testBit t = true).card

theorem overlap_eq {e i : Nat} (hi : i < 2 ^ e) (k : Nat) : overlap i k = ((range e).filter fun t => i.testBit t = true ∧ k.testBit t = true).card := by
  unfold overlap
  congr 1
  ext t
  simp only [mem_filter, mem_range]
  constructor
  · rintro ⟨_, h1, h2⟩
    refine ⟨?_, h1, h2⟩
    by_contra hc
    rw [Nat.testBit_lt_two_pow (lt_of_lt_of_le hi (Nat.pow_le_pow_right (by omega) (by omega)))] at h1
    cases h1
  · rintro ⟨_, h1, h2⟩
    refine ⟨?_, h1, h2⟩
    have := Nat.ge_two_pow_of_testBit h1
    have := Nat.lt_two_pow_self (n := t)
    omega

theorem chi_eq {e i : Nat} (hi : i < 2 ^ e) (k : Nat) : chi e i k = if Even (overlap i k) then 1 else -1 := by
  rw [overlap_eq hi]
  have : ∀ e, chi e i k = (-1) ^ ((range e).filter fun t => i.testBit t = true ∧ k.testBit t = true).card := by
    intro e
    induction e with
    | zero => simp [chi]
    | succ e ih =>
      rw [chi_succ, ih, range_add_one, filter_insert]
      by_cases h : i.testBit e = true ∧ k.testBit e = true
      · rw [if_pos h, card_insert_of_notMem (by simp), h.1, h.2, pow_succ]; simp
      · rw [if_neg h]
        have : (i.testBit e && k.testBit e) = false := by
          rw [Bool.eq_false_iff]
          intro hc
          rw [Bool.and_eq_true] at hc
          exact h hc
        rw [this]; simp
  rw [this]
  by_cases h : Even ((range e).filter fun t => i.testBit t = true ∧ k.testBit t = true).card
  · rw [if_pos h, h.neg_one_pow]
  · rw [if_neg h, (Nat.not_even_iff_odd.1 h).neg_one_pow]

/-- a truth table as list of integers -/
def bits (n : Nat) (v : Nat → Bool) : List Int := ((List.range (2 ^ n)).map v).map fun b => (b.toNat : Int)

theorem bits_length (n : Nat) (v : Nat → Bool) : (bits n v).length = 2 ^ n := by simp [bits]

theorem ent_bits {n : Nat} {v : Nat → Bool} {i : Nat} (hi : i < 2 ^ n) : ent (bits n v) i = ((v i).toNat : Int) := by
  unfold ent bits
  rw [List.getD_eq_getElem?_getD, List.getElem?_map, List.getElem?_map, List.getElem?_range hi]; rfl

theorem walshSpectrum_eq {f : Boolf} (h : Sound f) {n : Nat} (hn : f.adicity ≤ n) :
    f.walshSpectrum (.arity n) = .ok (fwht (bits n fun i => f.eval i.testBit)) := by
  unfold Boolf.walshSpectrum
  rw [tt_arity_eq h hn]
  rfl

theorem signed_count {e : Nat} (v : Nat → Bool) (k : Nat) :
    ∑ j ∈ range (2 ^ e), chi e j k * ((v j).toNat : Int) =
      (((range (2 ^ e)).filter fun i => v i = true ∧ Even (overlap i k)).card : Int) - ((range (2 ^ e)).filter fun i => v i = true ∧ Odd (overlap i k)).card := by
  rw [card_filter, card_filter]
  push_cast
  rw [← sum_sub_distrib]
  refine sum_congr rfl fun j hj => ?_
  rw [chi_eq (mem_range.1 hj)]
  by_cases hv : v j = true
  · by_cases he : Even (overlap j k)
    · have : ¬ Odd (overlap j k) := Nat.not_odd_iff_even.2 he
      simp [hv, he, this]
    · have : Odd (overlap j k) := Nat.not_even_iff_odd.1 he
      simp [hv, he, this]
  · simp [hv]

theorem sum_toNat (m : Nat) (v : Nat → Bool) : ∑ i ∈ range m, ((v i).toNat : Int) * ((v i).toNat : Int) = ((range m).filter fun i => v i = true).card := by
  rw [card_filter]
  push_cast
  refine sum_congr rfl fun j _ => ?_
  cases v j <;> simp

/-- **C71.** Entry `k` of the Walsh spectrum is the number of true places that have an even number of common digits with `k`, minus the number of those that
have an odd number. -/
theorem C71_spectrum (f : Boolf) (hf : Obj f) :
    (∀ n : Nat, f.adicity ≤ n → ∃ w, f.walshSpectrum (.arity n) = .ok w ∧ w.length = 2 ^ n ∧ ∀ k < 2 ^ n,
      w[k]? = some ((((range (2 ^ n)).filter fun i => f.getItem i = .ok true ∧ Even (overlap i k)).card : Int) -
        ((range (2 ^ n)).filter fun i => f.getItem i = .ok true ∧ Odd (overlap i k)).card)) ∧
    (∀ n : Int, 0 ≤ n → n < f.adicity → f.walshSpectrum (.arity n) = .error .argTooSmall) ∧
    (∀ n : Int, n < 0 → f.walshSpectrum (.arity n) = .error .valueError) ∧
    f.walshSpectrum .noArg = f.walshSpectrum (.arity f.adicity) := by
  have h := hf.good.toSound
  refine ⟨fun n hn => ⟨_, walshSpectrum_eq h hn, fwht_length (bits_length _ _), fun k hk => ?_⟩, fun n h0 hn => ?_, fun n hn => ?_, ?_⟩
  · have h1 := fwht_spec (bits_length n fun i => f.eval i.testBit) hk
    rw [sum_congr rfl fun j hj => by rw [ent_bits (mem_range.1 hj)], signed_count (fun i => f.eval i.testBit)] at h1
    have hl : k < (fwht (bits n fun i => f.eval i.testBit)).length := by rw [fwht_length (bits_length _ _)]; exact hk
    unfold ent at h1
    rw [List.getD_eq_getElem?_getD, List.getElem?_eq_getElem hl, Option.getD_some] at h1
    rw [List.getElem?_eq_getElem hl, h1]
    simp only [getItem_eq h, Except.ok.injEq]
  · unfold Boolf.walshSpectrum
    rw [(C51_tt f hf).2.1 n h0 hn]; rfl
  · unfold Boolf.walshSpectrum
    rw [(C51_tt f hf).2.2.1 n hn]; rfl
  · unfold Boolf.walshSpectrum
    rw [tt_noArg_eq]

/-- **C71.** Parseval: the sum of the squares of the entries is `2 ** n` times the number of true places. -/
theorem C71_parseval (f : Boolf) (hf : Obj f) (n : Nat) (hn : f.adicity ≤ n) (w : List Int) (hw : f.walshSpectrum (.arity n) = .ok w) :
    ∑ k ∈ range (2 ^ n), w.getD k 0 * w.getD k 0 = 2 ^ n * ((range (2 ^ n)).filter fun i => f.getItem i = .ok true).card := by
  have h := hf.good.toSound
  rw [walshSpectrum_eq h hn] at hw
  cases hw
  have := fwht_parseval (bits_length n fun i => f.eval i.testBit)
  rw [sum_congr (s₂ := range (2 ^ n)) rfl (g := fun i => (((f.eval i.testBit).toNat : Int)) * ((f.eval i.testBit).toNat : Int))
    (f := fun i => ent (bits n fun i => f.eval i.testBit) i * ent (bits n fun i => f.eval i.testBit) i)
    (fun j hj => by simp only [ent_bits (mem_range.1 hj)]), sum_toNat (2 ^ n) fun i => f.eval i.testBit] at this
  simp only [getItem_eq h, Except.ok.injEq]
  exact this

theorem two_pow_int (n : Nat) : ((2 ^ n : Nat) : Int) = 2 ^ n := by push_cast; rfl

theorem bits_of_dec {a : List Int} {n : Nat} (ha : a.length = 2 ^ n) (v : Nat → Bool) (h : ∀ i < 2 ^ n, ent a i = ((v i).toNat : Int)) : a = bits n v :=
  list_ext_ent (by rw [ha, bits_length]) fun k hk => by rw [ha] at hk; rw [h k hk, ent_bits hk]

theorem walsh_length (ws : List Int) {n : Nat} (hl : ws.length = 2 ^ n) : (if ws.length < 2 then (1 : Int) else ((fwht ws).length : Int)) = 2 ^ n := by
  rw [fwht_length hl, hl]
  split
  · rename_i hlt
    have hn : n = 0 := by
      by_contra hc
      have : 2 ^ 1 ≤ 2 ^ n := Nat.pow_le_pow_right (by omega) (by omega)
      omega
    subst hn; rfl
  · exact two_pow_int n

/-- the constructor, for lists of the right length -/
theorem newWalsh_spec {ws : List Int} {n : Nat} (hl : ws.length = 2 ^ n) :
    (∀ v : Nat → Bool, ws = fwht (bits n v) → ∃ g, newWalsh ws false = .ok g ∧ Canon g ∧ g.adicity ≤ n ∧ ∀ j < 2 ^ n, g.eval j.testBit = v j) ∧
    ((∀ v : Nat → Bool, ws ≠ fwht (bits n v)) → newWalsh ws false = .error .argValue) := by
  have hpos : (0 : Int) < 2 ^ n := by rw [← two_pow_int]; exact_mod_cast Nat.two_pow_pos n
  constructor
  · intro v hv
    obtain ⟨g, g1, g2, g3, _, g5⟩ := newTT_fun n v
    refine ⟨g, ?_, g2, g3, fun j hj => by rw [g5, Nat.mod_eq_of_lt hj]⟩
    have hent : ∀ i < 2 ^ n, ent (fwht ws) i = 2 ^ n * ((v i).toNat : Int) := by
      intro i hi
      rw [hv, fwht_fwht (bits_length n v) hi, ent_bits hi]
    have hfl := fwht_length hl
    have hfw : fwht ws = ((List.range (2 ^ n)).map v).map fun b => if b then (2 : Int) ^ n else 0 := by
      apply list_ext_ent (by rw [hfl]; simp)
      intro k hk
      rw [hfl] at hk
      rw [hent k hk]
      unfold ent
      rw [List.getD_eq_getElem?_getD, List.getElem?_map, List.getElem?_map, List.getElem?_range hk]
      simp only [Option.map_some, Option.getD_some]
      cases v k <;> simp
    unfold newWalsh
    simp only
    rw [walsh_length ws hl, if_pos]
    · rw [← g1]
      congr 2
      rw [hfw, List.map_map]
      apply List.map_congr_left
      intro b _
      simp only [Function.comp_apply]
      cases b
      · simp only [Bool.false_eq_true, if_false, Bool.toNat_false]
        rw [if_neg (by omega)]; rfl
      · simp
    · rw [List.all_eq_true, hfw]
      intro x hx
      obtain ⟨b, _, rfl⟩ := List.mem_map.1 hx
      cases b <;> simp
  · intro hv
    unfold newWalsh
    simp only
    rw [walsh_length ws hl, if_neg]
    intro hall
    rw [List.all_eq_true] at hall
    refine hv (fun i => decide (ent (fwht ws) i = 2 ^ n)) ?_
    apply list_ext_ent (by rw [hl, fwht_length (bits_length _ _)])
    intro k hk
    rw [hl] at hk
    have hfl := fwht_length hl
    have h1 : ∀ i < 2 ^ n, ent (fwht ws) i = 2 ^ n * ent (bits n fun i => decide (ent (fwht ws) i = 2 ^ n)) i := by
      intro i hi
      rw [ent_bits hi]
      have hi' : i < (fwht ws).length := by rw [hfl]; exact hi
      have hm := hall (fwht ws)[i] (List.getElem_mem hi')
      have he : ent (fwht ws) i = (fwht ws)[i] := by
        unfold ent
        rw [List.getD_eq_getElem?_getD, List.getElem?_eq_getElem hi']; rfl
      rw [decide_eq_true_eq, ← he] at hm
      rcases hm with hm | hm
      · rw [hm, decide_eq_false (by omega)]; simp
      · rw [hm]; simp
    have h2 := fwht_fwht hl hk
    rw [fwht_spec hfl hk, sum_congr rfl fun j hj => by rw [h1 j (mem_range.1 hj)]] at h2
    have h3 : ∑ j ∈ range (2 ^ n), chi n j k * (2 ^ n * ent (bits n fun i => decide (ent (fwht ws) i = 2 ^ n)) j) =
        2 ^ n * ∑ j ∈ range (2 ^ n), chi n j k * ent (bits n fun i => decide (ent (fwht ws) i = 2 ^ n)) j := by
      rw [mul_sum]
      exact sum_congr rfl fun j _ => by ring
    rw [h3, ← fwht_spec (bits_length _ _) hk] at h2
    exact (mul_left_cancel₀ (by omega) h2).symm

theorem new_ws (ws : List Int) : new { ws := some ws } = newWalsh ws false := rfl

/-- **C71.** The function can be rebuilt from its Walsh spectrum. -/
theorem C71_rebuild (f : Boolf) (hf : Reach f) (n : Nat) (hn : f.adicity ≤ n) (w : List Int) (hw : f.walshSpectrum (.arity n) = .ok w) :
    new { ws := some w } = .ok f := by
  rw [walshSpectrum_eq hf.canon.toSound hn] at hw
  cases hw
  obtain ⟨g, g1, g2, g3, g4⟩ := (newWalsh_spec (fwht_length (bits_length n fun i => f.eval i.testBit))).1 _ rfl
  rw [new_ws, g1]
  exact congrArg Except.ok (ext_below g2 hf.canon g3 hn g4)

/-- **C71.** A list of length `2 ** n` is accepted iff it is the Walsh spectrum of some function of arity `n`, and this function is the result. -/
theorem C71_accepts (ws : List Int) (n : Nat) (hl : ws.length = 2 ^ n) :
    (∀ f, new { ws := some ws } = .ok f ↔ Reach f ∧ f.adicity ≤ n ∧ f.walshSpectrum (.arity n) = .ok ws) ∧
    ((¬ ∃ f, Reach f ∧ f.adicity ≤ n ∧ f.walshSpectrum (.arity n) = .ok ws) → new { ws := some ws } = .error .argValue) := by
  obtain ⟨h1, h2⟩ := newWalsh_spec hl
  by_cases hex : ∃ v : Nat → Bool, ws = fwht (bits n v)
  · obtain ⟨v, hv⟩ := hex
    obtain ⟨g, g1, g2, g3, g4⟩ := h1 v hv
    have hg : g.walshSpectrum (.arity n) = .ok ws := by
      rw [walshSpectrum_eq g2.toSound g3, hv]
      have : bits n (fun i => g.eval i.testBit) = bits n v :=
        list_ext_ent (by rw [bits_length, bits_length]) fun k hk => by
          rw [bits_length] at hk
          rw [ent_bits hk, ent_bits hk, g4 k hk]
      rw [this]
    refine ⟨fun f => ⟨fun hf => ?_, fun ⟨a, b, c⟩ => C71_rebuild f a n b ws c⟩, fun hc => absurd ⟨g, g2.reach, g3, hg⟩ hc⟩
    rw [new_ws, g1] at hf
    cases hf
    exact ⟨g2.reach, g3, hg⟩
  · push Not at hex
    refine ⟨fun f => ⟨fun hf => ?_, fun ⟨a, b, c⟩ => C71_rebuild f a n b ws c⟩, fun _ => h2 hex⟩
    rw [new_ws, h2 hex] at hf
    cases hf

theorem log2_eq {m e : Nat} (h1 : 2 ^ e ≤ m) (h2 : m < 2 ^ (e + 1)) : Nat.log2 m = e := by
  rw [Nat.log2_eq_iff (by have := Nat.two_pow_pos e; omega)]
  exact ⟨h1, h2⟩

/-- **C71.** A list whose length is between two powers of two is filled up with zeros; the empty list is rejected. -/
theorem C71_filled (ws : List Int) (e : Nat) (h1 : 2 ^ e < ws.length) (h2 : ws.length < 2 ^ (e + 1)) :
    new { ws := some ws } = new { ws := some (ws ++ List.replicate (2 ^ (e + 1) - ws.length) 0) } := by
  have hpos := Nat.two_pow_pos e
  have hlen : (ws ++ List.replicate (2 ^ (e + 1) - ws.length) (0 : Int)).length = 2 ^ (e + 1) := by
    rw [List.length_append, List.length_replicate]; omega
  have hnp : isPowerOfTwo ws.length = false := by
    rw [Bool.eq_false_iff, ne_eq, isPowerOfTwo_iff]
    rintro ⟨k, hk⟩
    rw [hk] at h1 h2
    have := (Nat.pow_lt_pow_iff_right (by omega : 1 < 2)).1 h1
    have := (Nat.pow_lt_pow_iff_right (by omega : 1 < 2)).1 h2
    omega
  have hlog := log2_eq h1.le h2
  generalize hzs : ws ++ List.replicate (2 ^ (e + 1) - ws.length) (0 : Int) = zs at hlen ⊢
  have hp : isPowerOfTwo zs.length = true := by rw [hlen]; exact isPowerOfTwo_iff.2 ⟨_, rfl⟩
  have hz2 : ¬ zs.length < 2 := by rw [hlen, pow_succ]; omega
  have hfw : fwht ws = fwht zs := by
    unfold fwht
    rw [if_neg (by omega : ¬ ws.length < 2), if_neg hz2]
    simp only [hnp, hp, Bool.false_eq_true, if_false, if_true]
    rw [hlog, hlen, log2_two_pow, Nat.sub_self, List.replicate_zero, List.append_nil, hzs]
  rw [new_ws, new_ws]
  unfold newWalsh
  simp only
  rw [← hfw, if_neg (by omega : ¬ ws.length < 2), if_neg hz2]

theorem C71_empty : new { ws := some [] } = .error .argValue := by
  show newTT (.list []) = _
  exact (C64_without_atoms []).1 rfl

/-- **C71.** The spectrum of the complement: the entries after the first change their sign, the first one is subtracted from `2 ** n`. -/
theorem C71_complement (f : Boolf) (hf : Reach f) (n : Nat) (hn : f.adicity ≤ n) (w : List Int) (hw : f.walshSpectrum (.arity n) = .ok w) :
    ∃ g w', f.complement = .ok g ∧ g.walshSpectrum (.arity n) = .ok w' ∧ w'.length = 2 ^ n ∧
      ∀ k < 2 ^ n, w'.getD k 0 = if k = 0 then 2 ^ n - w.getD k 0 else - w.getD k 0 := by
  have h := hf.canon
  rw [walshSpectrum_eq h.toSound hn] at hw
  cases hw
  obtain ⟨g, g1, g2, g3⟩ := complement_spec h.toSound
  have hgn : g.adicity ≤ n := by
    rw [g2.adic]
    intro x hx
    by_contra hc
    have hnf : x ∉ f.atomvals := fun hx' => hc (lt_of_lt_of_le (h.adic_lt hx') hn)
    apply hnf
    rw [h.mem_iff]
    obtain ⟨a, ha⟩ := (g2.mem_iff x).1 hx
    refine ⟨a, fun hc' => ha ?_⟩
    rw [g3, g3, hc']
  refine ⟨g, _, g1, walshSpectrum_eq g2.toSound hgn, fwht_length (bits_length _ _), fun k hk => ?_⟩
  have a1 := fwht_spec (bits_length n fun i => g.eval i.testBit) hk
  have a2 := fwht_spec (bits_length n fun i => f.eval i.testBit) hk
  show ent _ _ = if k = 0 then 2 ^ n - ent _ _ else - ent _ _
  have e1 : ∑ j ∈ range (2 ^ n), chi n j k * ent (bits n fun i => g.eval i.testBit) j =
      ∑ j ∈ range (2 ^ n), chi n k j - ∑ j ∈ range (2 ^ n), chi n j k * ent (bits n fun i => f.eval i.testBit) j := by
    rw [← sum_sub_distrib]
    refine sum_congr rfl fun j hj => ?_
    rw [ent_bits (mem_range.1 hj), ent_bits (mem_range.1 hj), g3, chi_comm n k j]
    cases f.eval j.testBit <;> simp
  rw [a1, e1, sum_chi hk, ← a2]
  split <;> simp

example : new { ws := some [2, 0, -2, 0] } = .ok (setUnary 1) := by decide

end Verif.BF
