import Verif.Walsh.Props3

/-! # Moved and fixed numbers of a Walsh permutation; property C153 -/

namespace Verif.W
open Verif.Py Verif.BV Verif.P
open Verif.A hiding Mat
open Verif.SG (Mat)

/-! ## Model -/

/-- walsh_perm/metributes/moved/__init__.py:4-6 (replaces the attribute of `Perm`) -/
def Walsh.moved (w : Walsh) : Except Err (List Nat) :=
  match w.mapping with
  | .error e => .error e
  | .ok m => .ok m.keys

/-! ## C153 -/

/-- A finite set of natural numbers that contains 0 and is closed under `^`. -/
theorem closed_count : ∀ (d : Nat) (p : Nat → Bool), p 0 = true → (∀ x y, p x = true → p y = true → p (x ^^^ y) = true) →
    ∃ k ≤ d, ((List.range (2 ^ d)).filter p).length = 2 ^ k
  | 0, p, h0, _ => ⟨0, le_rfl, by simp [h0]⟩
  | d + 1, p, h0, hx => by
    obtain ⟨k, hk, hc⟩ := closed_count d p h0 hx
    have hsplit : List.range (2 ^ (d + 1)) = List.range (2 ^ d) ++ (List.range (2 ^ d)).map (2 ^ d + ·) := by
      rw [pow_succ, mul_two, List.range_add]
    rw [hsplit, List.filter_append, List.length_append, hc]
    by_cases ha : ∃ a < 2 ^ d, p (2 ^ d + a) = true
    · obtain ⟨a, ha, hpa⟩ := ha
      refine ⟨k + 1, by omega, ?_⟩
      have hperm : (((List.range (2 ^ d)).map (2 ^ d + ·)).filter p).Perm (((List.range (2 ^ d)).filter p).map fun x => x ^^^ (2 ^ d + a)) := by
        have hadd : ∀ z < 2 ^ d, 2 ^ d + z = 2 ^ d ^^^ z := fun z hz => by
          apply Nat.eq_of_testBit_eq
          intro i
          rw [Nat.testBit_xor, Nat.testBit_two_pow]
          by_cases hi : i = d
          · subst hi; rw [Nat.testBit_two_pow_add_eq, Nat.testBit_lt_two_pow hz]; simp
          · rcases Nat.lt_or_gt_of_ne hi with h | h
            · rw [Nat.testBit_two_pow_add_gt h]; simp [Ne.symm hi]
            · rw [Nat.testBit_lt_two_pow (x := 2 ^ d + z), Nat.testBit_lt_two_pow (x := z)]
              · simp [Ne.symm hi]
              · exact lt_of_lt_of_le hz (Nat.pow_le_pow_right (by omega) h.le)
              · refine lt_of_lt_of_le (b := 2 ^ (d + 1)) (by rw [pow_succ]; omega) (Nat.pow_le_pow_right (by omega) h)
        have hinj : Function.Injective fun x : Nat => x ^^^ (2 ^ d + a) := fun x y h => Nat.xor_left_inj.1 h
        rw [List.perm_ext_iff_of_nodup ((List.nodup_range.map fun x y h => by simpa using h).filter _) ((List.nodup_range.filter _).map hinj)]
        intro z
        simp only [List.mem_filter, List.mem_map, List.mem_range]
        constructor
        · rintro ⟨⟨y, hy, rfl⟩, hp⟩
          refine ⟨y ^^^ a, ⟨Nat.xor_lt_two_pow hy ha, ?_⟩, ?_⟩
          · have := hx _ _ hp hpa
            rw [hadd y hy, hadd a ha] at this
            have e : 2 ^ d ^^^ y ^^^ (2 ^ d ^^^ a) = y ^^^ a := by
              rw [Nat.xor_comm (2 ^ d) y, Nat.xor_assoc, ← Nat.xor_assoc (2 ^ d) (2 ^ d) a, Nat.xor_self, Nat.zero_xor]
            rwa [e] at this
          · rw [hadd a ha, hadd y hy, Nat.xor_comm (2 ^ d) a, Nat.xor_assoc y a, ← Nat.xor_assoc a a, Nat.xor_self, Nat.zero_xor, Nat.xor_comm]
        · rintro ⟨y, ⟨hy, hp⟩, rfl⟩
          refine ⟨⟨y ^^^ a, Nat.xor_lt_two_pow hy ha, ?_⟩, hx _ _ hp hpa⟩
          rw [hadd _ (Nat.xor_lt_two_pow hy ha), hadd a ha, Nat.xor_comm y (2 ^ d ^^^ a), Nat.xor_assoc, Nat.xor_comm y a]
      rw [hperm.length_eq, List.length_map, hc, pow_succ]
      omega
    · refine ⟨k, by omega, ?_⟩
      have : (((List.range (2 ^ d)).map (2 ^ d + ·)).filter p) = [] := by
        rw [List.filter_eq_nil_iff]
        rintro z hz
        obtain ⟨y, hy, rfl⟩ := List.mem_map.1 hz
        exact fun h => ha ⟨y, List.mem_range.1 hy, h⟩
      rw [this]
      rfl

/-- **C153.** `moved` contains exactly the numbers below `2 ** degree` that are mapped to another number. -/
theorem C153_moved (w : Walsh) (hw : Constructed w) (f : Nat → Nat) (hf : ∀ x, w.get x = .ok (f x)) :
    ∃ m, w.moved = .ok m ∧ m.Nodup ∧ ∀ x, x ∈ m ↔ x < 2 ^ w.degree ∧ f x ≠ x := by
  obtain ⟨d, B, hB⟩ := hw.valid
  have hd := hB.1.deg
  subst hd
  have hact : act w.degree B = f := by
    funext x
    have := hf x
    rw [hB.get] at this
    exact Except.ok.inj this
  obtain ⟨p, _, p2, p3, p4, p5, p6⟩ := hB.asPerm
  refine ⟨p.mapping.keys, by unfold Walsh.moved; rw [p6], p2.wf.good.nodup, fun x => ?_⟩
  by_cases h0 : w.degree = 0
  · have hn : p.neutral = true := by rw [p5]; simp [h0]
    have hm := p2.wf.neutral_iff.1 hn
    rw [hm]
    have : f x = x := by rw [← hact, ← p3]; unfold Perm.get; rw [hn]; rfl
    simp [this]
  · rw [if_neg h0] at p4
    rw [p2.wf.good.mem_keys_iff_ne]
    have hlt := p2.wf.per_lt _ p4
    constructor
    · intro h
      have hx : x < 2 ^ w.degree := hlt x (p2.wf.good.mem_keys_iff_ne.2 h)
      refine ⟨hx, ?_⟩
      rw [← hact, ← p3, get_periodic p2.wf p4, per_of_lt _ hx]
      exact h
    · rintro ⟨hx, h⟩
      rw [← hact, ← p3, get_periodic p2.wf p4, per_of_lt _ hx] at h
      exact h

/-- **C153.** Among the numbers below `2 ** degree`, 0 is not moved, and the `^` of two numbers that are not moved is not moved.  The number of
those that are not moved is a power of two, and at least half of the numbers are moved if the permutation is not neutral. -/
theorem C153_count (w : Walsh) (hw : Constructed w) :
    ∃ m k, w.moved = .ok m ∧ 0 ∉ m ∧ (∀ x < 2 ^ w.degree, ∀ y < 2 ^ w.degree, x ∉ m → y ∉ m → x ^^^ y ∉ m) ∧
      k ≤ w.degree ∧ m.length + 2 ^ k = 2 ^ w.degree ∧ (w.neutral = true ↔ m = []) ∧
      (w.neutral = false → k < w.degree ∧ 2 ^ (w.degree - 1) ≤ m.length) := by
  obtain ⟨f, hf, hbij, hx, hdiv, _⟩ := C34_linear w hw
  obtain ⟨m, m1, m2, m3⟩ := C153_moved w hw f hf
  obtain ⟨_, _, hneu, _⟩ := C36_degree w hw f hf
  have hf0 : f 0 = 0 := by have := hx 0 0; simpa using this
  obtain ⟨k, hk, hc⟩ := closed_count w.degree (fun x => decide (f x = x)) (by simpa using hf0) (fun x y h1 h2 => by
    simp only [decide_eq_true_eq] at *
    rw [hx, h1, h2])
  have hperm : m.Perm ((List.range (2 ^ w.degree)).filter fun x => !decide (f x = x)) := by
    rw [List.perm_ext_iff_of_nodup m2 (List.nodup_range.filter _)]
    intro x
    rw [m3]
    simp
  have hlen : m.length + 2 ^ k = 2 ^ w.degree := by
    rw [← hc, hperm.length_eq, Nat.add_comm, ← List.length_eq_length_filter_add, List.length_range]
  have hnil : w.neutral = true ↔ m = [] := by
    rw [hneu]
    constructor
    · intro h
      rw [List.eq_nil_iff_forall_not_mem]
      intro x hxm
      exact ((m3 x).1 hxm).2 (h x)
    · intro h x
      have hlow : ∀ y < 2 ^ w.degree, f y = y := by
        intro y hy
        by_contra hne
        have := (m3 y).2 ⟨hy, hne⟩
        rw [h] at this
        cases this
      obtain ⟨_, _, _, hx', _, hper⟩ := C34_linear w hw
      have key : ∀ j y, y < 2 ^ w.degree → f (y + j * 2 ^ w.degree) = y + j * 2 ^ w.degree := by
        intro j
        induction j with
        | zero => intro y hy; simpa using hlow y hy
        | succ j ih =>
          intro y hy
          have hp : ∀ z, f (z + 2 ^ w.degree) = f z + 2 ^ w.degree := by
            obtain ⟨g, hg, _, _, _, hgp⟩ := C34_linear w hw
            have : g = f := by
              funext z
              have := hf z
              rw [hg] at this
              exact Except.ok.inj this
            rw [← this]
            exact hgp
          rw [Nat.succ_mul, ← Nat.add_assoc, hp, ih y hy]
      have := key (x / 2 ^ w.degree) (x % 2 ^ w.degree) (Nat.mod_lt _ (Nat.two_pow_pos _))
      rwa [Nat.mod_add_div'] at this
  refine ⟨m, k, m1, fun h => ((m3 0).1 h).2 hf0, fun x hxl y hyl h1 h2 h => ?_, hk, hlen, hnil, fun hn => ?_⟩
  · rw [m3] at h1 h2 h
    have e1 : f x = x := by by_contra hne; exact h1 ⟨hxl, hne⟩
    have e2 : f y = y := by by_contra hne; exact h2 ⟨hyl, hne⟩
    exact h.2 (by rw [hx, e1, e2])
  · have hkd : k ≠ w.degree := by
      rintro rfl
      have : m = [] := List.length_eq_zero_iff.1 (by omega)
      rw [← hnil, hn] at this
      cases this
    refine ⟨by omega, ?_⟩
    have h1 : 2 ^ k ≤ 2 ^ (w.degree - 1) := Nat.pow_le_pow_right (by omega) (by omega)
    have h2 : 2 ^ w.degree = 2 * 2 ^ (w.degree - 1) := by
      rw [← pow_succ']
      congr 1
      omega
    omega

/-- **C153.** The inverse moves the same numbers. -/
theorem C153_inverse (w : Walsh) (hw : Constructed w) :
    ∃ v m n, w.inverse = .ok v ∧ v.degree = w.degree ∧ w.moved = .ok m ∧ v.moved = .ok n ∧ m.Perm n := by
  obtain ⟨v, v1, v2, v3, _⟩ := C35_inverse w hw
  obtain ⟨f, hf, hbij, _, _, hfp⟩ := C34_linear w hw
  obtain ⟨g, hg, _, _, _, hgp⟩ := C34_linear v v2
  have hgf : ∀ x, g (f x) = x := fun x => by
    have := (v3 (f x) x).2 (hf x)
    rw [hg] at this
    exact Except.ok.inj this
  have hfg : ∀ x, f (g x) = x := fun x => by
    have := (v3 x (g x)).1 (hg x)
    rw [hf] at this
    exact Except.ok.inj this
  obtain ⟨df, _⟩ := C36_degree w hw f hf
  obtain ⟨dg, _⟩ := C36_degree v v2 g hg
  have hdeg : v.degree = w.degree := by
    apply le_antisymm
    · rw [dg]
      intro x
      conv_lhs => rw [← hfg x, ← hfp, hgf]
    · rw [df]
      intro x
      conv_lhs => rw [← hgf x, ← hgp, hfg]
  obtain ⟨m, m1, m2, m3⟩ := C153_moved w hw f hf
  obtain ⟨n, n1, n2, n3⟩ := C153_moved v v2 g hg
  refine ⟨v, m, n, v1, hdeg, m1, n1, ?_⟩
  rw [List.perm_ext_iff_of_nodup m2 n2]
  intro x
  rw [m3, n3, hdeg]
  have : f x = x ↔ g x = x := ⟨fun h => by conv_lhs => rw [← h]
                                           exact hgf x, fun h => by conv_lhs => rw [← h]
                                                                    exact hfg x⟩
  simp only [ne_eq, this]

/-- A permutation of degree 2 that moves 2 and 3. -/
example : ∃ w m, new { vector := some [1, 3] } = .ok w ∧ Constructed w ∧ w.degree = 2 ∧ w.neutral = false ∧ w.moved = .ok m ∧
    ∀ x, x ∈ m ↔ x = 2 ∨ x = 3 := by
  obtain ⟨a, a1, a3, a2⟩ := C34_vector [1, 3] (by decide) (by
    have key : ∀ s ∈ [1, 3].sublists, s ≠ [] → s.foldl (· ^^^ ·) 0 ≠ 0 := by decide
    exact fun s hs => key s (List.mem_sublists.2 hs))
  have ha : Constructed a := ⟨_, rfl, a1⟩
  obtain ⟨f, hf, hbij, hx, hdiv, hper⟩ := C34_linear a ha
  have f1 : f 1 = 1 := Except.ok.inj ((hf 1).symm.trans (a2 0))
  have f2 : f 2 = 3 := Except.ok.inj ((hf 2).symm.trans (a2 1))
  have f0 : f 0 = 0 := by have := hx 0 0; simpa using this
  have f3 : f 3 = 2 := by have := hx 1 2; rw [f1, f2] at this; exact this
  have hdeg := C36_degree a ha f hf
  have h3 : a.degree ≤ 2 := a3
  have h0 : a.degree ≠ 0 := by
    intro h0
    have := hdeg.2.2.1.1 (hdeg.2.2.2.1.2 h0) 2
    omega
  have h2 : a.degree = 2 := by have := hdeg.2.1; omega
  obtain ⟨m, m1, _, m3⟩ := C153_moved a ha f hf
  refine ⟨a, m, a1, ha, h2, ?_, m1, fun x => ?_⟩
  · cases hn : a.neutral with
    | false => rfl
    | true => exact absurd (hdeg.2.2.2.1.1 hn) h0
  · rw [m3, h2]
    constructor
    · rintro ⟨hx, hne⟩
      have : x = 0 ∨ x = 1 ∨ x = 2 ∨ x = 3 := by omega
      rcases this with rfl | rfl | h
      · exact absurd f0 hne
      · exact absurd f1 hne
      · exact h
    · rintro (rfl | rfl)
      · exact ⟨by omega, by omega⟩
      · exact ⟨by omega, by omega⟩

end Verif.W
