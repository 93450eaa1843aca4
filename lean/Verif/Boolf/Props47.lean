import Verif.Boolf.Props46

/-!
# The minimal representative of a faction
-/

namespace Verif.BF
open Verif.Py Verif.BV Verif.P Verif.W Verif.SP
open Verif.A hiding Mat

/-- The permutations for which the entry of the twin is false. -/
theorem factionWrapper_spec {n H : Nat} (hH : H < 2 ^ n) {a : Nat → Bool} {layers : Dict Nat (List Nat × List Nat)} {ratios : Dict Nat Rat} (hl : Layers n a layers ratios)
    {P : Nat → Perm} (hP : ∀ k, intToPerm k = .ok (P k)) (ratio : Rat) :
    ∃ l, factionSchouteWrapper H n layers (ones n H) ratio = .ok l ∧ ∀ k, k ∈ l ↔ k < Nat.factorial n ∧ a (pre n (P k).get H) = false := by
  have key : ∀ b, ∃ found, foundLoop H n (layerPlaces n a (ones n H) b) [] = .ok found ∧ ∀ k, k ∈ found ↔ k < Nat.factorial n ∧ a (pre n (P k).get H) = b := by
    intro b
    obtain ⟨found, h1, h2⟩ := foundLoop_spec hH hP (layerPlaces n a (ones n H) b) (fun K hK => ⟨(mem_layerPlaces.1 hK).1, (mem_layerPlaces.1 hK).2.1⟩) []
    refine ⟨found, h1, fun k => ?_⟩
    rw [h2, mem_layerPlaces]
    constructor
    · rintro (h | ⟨h, _, _, h'⟩)
      · simp at h
      · exact ⟨h, h'⟩
    · rintro ⟨h, h'⟩
      exact .inr ⟨h, pre_lt _ _ _, ones_pre (below_of_index h (hP k)) H, h'⟩
  unfold factionSchouteWrapper dictGet
  rw [hl.layer _ (ones_le n H)]
  simp only [bind, Except.bind]
  by_cases hr : ratio < 1 / 2
  · obtain ⟨found, h1, h2⟩ := key true
    simp only [hr, decide_true, if_true, h1]
    refine ⟨_, rfl, fun k => ?_⟩
    rw [List.mem_filter, List.mem_range]
    simp only [Bool.not_eq_true', ← Bool.not_eq_true, List.contains_iff_mem, h2]
    constructor
    · rintro ⟨h, h'⟩
      exact ⟨h, fun hc => h' ⟨h, hc⟩⟩
    · rintro ⟨h, h'⟩
      exact ⟨h, fun hc => h' hc.2⟩
  · obtain ⟨found, h1, h2⟩ := key false
    simp only [hr, decide_false, Bool.false_eq_true, if_false, h1]
    exact ⟨_, rfl, h2⟩

theorem factionLoop_spec {f : Boolf} {n : Nat} {a : Nat → Bool} {layers : Dict Nat (List Nat × List Nat)} {ratios : Dict Nat Rat} (hl : Layers n a layers ratios)
    {P : Nat → Perm} (hP : ∀ k, intToPerm k = .ok (P k)) {g : Nat → Boolf} {z : Nat → Nat} (hm : ∀ k, f.pairMember 0 k = .ok (g k))
    (hz : ∀ k < Nat.factorial n, ∀ H < 2 ^ n, (z k).testBit H = a (pre n (P k).get H))
    (hg : ∀ c d, c < Nat.factorial n → d < Nat.factorial n → z c = z d → g c = g d) (i : Nat) (hi : i ≤ 2 ^ n) (st : Option (List Nat))
    (hI : Inv (· < Nat.factorial n) z g i st) :
    ∃ c, f.factionMinrepLoop n (2 ^ n) layers ratios (List.range' (2 ^ n - i) i) st = .ok (some (g c)) ∧ Least (· < Nat.factorial n) z 0 c := by
  induction i generalizing st with
  | zero => exact (hI.zero_false hg).elim
  | succ i ih =>
    have ih := ih (by omega)
    have hL : i < 2 ^ n := by omega
    have hlist : List.range' (2 ^ n - (i + 1)) (i + 1) = (2 ^ n - (i + 1)) :: List.range' (2 ^ n - i) i := by
      rw [List.range'_succ, show 2 ^ n - (i + 1) + 1 = 2 ^ n - i by omega]
    have hleft : 2 ^ n - (2 ^ n - (i + 1)) - 1 = i := by omega
    obtain ⟨q, q1, q2, q3⟩ := hl.ratio (ones n i) (ones_le n i)
    have hplace : ∀ k < Nat.factorial n, pre n (P k).get i ∈ layerPlaces n a (ones n i) ((z k).testBit i) := by
      intro k hk
      rw [mem_layerPlaces, hz k hk i hL]
      exact ⟨pre_lt _ _ _, ones_pre (below_of_index hk (hP k)) i, rfl⟩
    rw [hlist]
    unfold Boolf.factionMinrepLoop
    simp only [hleft]
    rw [weight_ones hL]
    unfold dictGet
    rw [q1]
    simp only [bind, Except.bind]
    by_cases h1 : q = 0 ∨ q = 1
    · rw [if_pos h1]
      rcases h1 with h1 | h1
      · apply ih st (hI.skip false fun c hc => ?_)
        by_contra hb
        have := hplace c hc
        rw [Bool.not_eq_false] at hb
        rw [hb, q2.1 h1] at this
        simp at this
      · apply ih st (hI.skip true fun c hc => ?_)
        by_contra hb
        have := hplace c hc
        rw [Bool.not_eq_true] at hb
        rw [hb, q3.1 h1] at this
        simp at this
    · rw [if_neg h1]
      obtain ⟨S, s1, s2⟩ := factionWrapper_spec hL hl hP q
      rw [s1]
      simp only
      have hS : ∀ c, c ∈ S ↔ c < Nat.factorial n ∧ (z c).testBit i = false := by
        intro c
        rw [s2]
        constructor
        · rintro ⟨h, h'⟩; exact ⟨h, by rw [hz c h i hL]; exact h'⟩
        · rintro ⟨h, h'⟩; exact ⟨h, by rw [← hz c h i hL]; exact h'⟩
      have hSne : S ≠ [] := by
        have hne : layerPlaces n a (ones n i) false ≠ [] := fun h => h1 (.inr (q3.2 h))
        obtain ⟨K, hK⟩ := List.exists_mem_of_ne_nil _ hne
        obtain ⟨k1, k2, k3⟩ := mem_layerPlaces.1 hK
        obtain ⟨k, hk, hk'⟩ := exists_pre k1 hL k2 hP
        exact List.ne_nil_of_mem ((s2 k).2 ⟨hk, by rw [hk']; exact k3⟩)
      have hnew : ∀ c, c ∈ narrow st S ↔ InState (· < Nat.factorial n) st c ∧ (z c).testBit i = false := by
        intro c
        cases st with
        | none => exact hS c
        | some all =>
          simp only [narrow, InState, List.mem_filter, List.contains_iff_mem, hS]
          constructor
          · rintro ⟨h, _, h'⟩; exact ⟨h, h'⟩
          · rintro ⟨h, h'⟩; exact ⟨h, ((hI.least c).1 h).1, h'⟩
      generalize hN : narrow st S = N at hnew ⊢
      by_cases h3 : (st.isSome && N.isEmpty) = true
      · rw [if_pos h3]
        simp only [Bool.and_eq_true, List.isEmpty_iff] at h3
        obtain ⟨all, rfl⟩ := Option.isSome_iff_exists.1 h3.1
        apply ih (some all) (hI.ignore fun c hc => ?_)
        by_contra hcb
        have := (hnew c).2 ⟨hc, by simpa using hcb⟩
        rw [h3.2] at this
        simp at this
      · rw [if_neg h3]
        have hNne : N ≠ [] := by
          intro hnil
          cases st with
          | none => exact hSne (hN.trans hnil)
          | some all => rw [hnil] at h3; simp at h3
        rcases hI.check hnew hNne (member := fun c => f.pairMember 0 c) (fun c _ => hm c) with ⟨c, k1, k2⟩ | ⟨k1, k2⟩
        · exact ⟨c, by rw [k1]; rfl, k2⟩
        · rw [k1]
          exact ih (some N) k2

/-- the members for the permutations of the atoms -/
theorem factionMembers {f : Boolf} (hf : Canon f) (hc : f.isConstant = false) :
    ∃ (P : Nat → Perm) (g : Nat → Boolf), (∀ k, intToPerm k = .ok (P k)) ∧ ∀ k, f.pairMember 0 k = .ok (g k) ∧ Canon (g k) ∧
      (∀ a, (g k).eval a = f.eval fun x => a ((P k).get x)) ∧ (k < Nat.factorial f.adicity → (g k).adicity ≤ f.adicity) := by
  obtain ⟨P, hP⟩ := perms_exist
  have : ∀ k, ∃ g, f.pairMember 0 k = .ok g ∧ Canon g ∧ (∀ a, g.eval a = f.eval fun x => a ((P k).get x)) ∧ (k < Nat.factorial f.adicity → g.adicity ≤ f.adicity) := by
    intro k
    obtain ⟨g, p, g1, p1, _, _, g2⟩ := pairMember_spec hf.good hc 0 k
    obtain rfl : P k = p := Except.ok.inj ((hP k).symm.trans p1)
    refine ⟨g, g1, g2.1, fun a => ?_, fun hk => lits_adicity g2 fun x hx => ?_⟩
    · rw [g2.2]
      congr 1
      funext x
      rw [lit_slit, Nat.zero_testBit, Bool.xor_false]
    · exact (below_of_index hk (hP k)).lt x (hf.toSound.adic_lt hx)
  choose g hg using this
  exact ⟨P, g, hP, hg⟩

/-- the member that is found by the search has the least index of all members -/
theorem factionMinrep_spec {f : Boolf} (hf : Canon f) (hc : f.isConstant = false) :
    ∃ (P : Nat → Perm) (g : Nat → Boolf), (∀ k, intToPerm k = .ok (P k)) ∧
      (∀ k < Nat.factorial f.adicity, Canon (g k) ∧ (∀ a, (g k).eval a = f.eval fun x => a ((P k).get x)) ∧ (g k).adicity ≤ f.adicity) ∧
      ∃ c < Nat.factorial f.adicity, f.factionMinrep = .ok (some (g c)) ∧ ∀ d < Nat.factorial f.adicity, Z (g c) f.adicity ≤ Z (g d) f.adicity := by
  obtain ⟨P, g, hP, hg⟩ := factionMembers hf hc
  refine ⟨P, g, hP, fun k hk => ⟨(hg k).2.1, (hg k).2.2.1, (hg k).2.2.2 hk⟩, ?_⟩
  obtain ⟨t, t1, t2⟩ := twin_row hf.toSound
  obtain ⟨layers, ratios, l1, l2, hl⟩ := layers_exist f.adicity (coef f f.adicity)
  have hco : ∀ k < Nat.factorial f.adicity, ∀ H, coef (g k) f.adicity H = coef f f.adicity (pre f.adicity (P k).get H) := fun k hk H =>
    coef_renamed hf.toSound le_rfl (below_of_index hk (hP k)) (hg k).2.2.1 H
  have hz : ∀ k < Nat.factorial f.adicity, ∀ H < 2 ^ f.adicity, (Z (g k) f.adicity).testBit H = coef f f.adicity (pre f.adicity (P k).get H) := by
    intro k hk H hH
    rw [testBit_Z hH, hco k hk]
  have hg0 : ∀ a, (g 0).eval a = f.eval a := by
    intro a
    obtain ⟨p, p1, p2⟩ := intToPerm_zero
    obtain rfl : P 0 = p := Except.ok.inj ((hP 0).symm.trans p1)
    rw [(hg 0).2.2.1]
    congr 1
    funext x
    rw [p2]
  have hf0 : g 0 = f := (hg 0).2.1.ext_key hf fun key => by rw [getItem_eq (hg 0).2.1.toSound, getItem_eq hf.toSound, hg0]
  have hmain : f.factionMinrep = if (ratios.all fun kr => decide (kr.2 = 0 ∨ kr.2 = 1)) = true then .ok (some f)
      else f.factionMinrepLoop f.adicity (2 ^ f.adicity) layers ratios (List.range' 1 (2 ^ f.adicity - 1)) none := by
    unfold Boolf.factionMinrep
    rw [if_neg (by simp [hc]), t1]
    simp only [bind, Except.bind]
    rw [t2]
    simp only [l1, l2, Nat.one_shiftLeft]
    rfl
  by_cases hs : (ratios.all fun kr => decide (kr.2 = 0 ∨ kr.2 = 1)) = true
  · rw [if_pos hs] at hmain
    refine ⟨0, Nat.factorial_pos _, by rw [hmain, hf0], fun d hd => le_of_eq ?_⟩
    apply Nat.eq_of_testBit_eq
    intro H
    by_cases hH : H < 2 ^ f.adicity
    · rw [hz 0 (Nat.factorial_pos _) H hH, hz d hd H hH]
      obtain ⟨q, q1, q2, q3⟩ := hl.ratio (ones f.adicity H) (ones_le _ _)
      have hq := List.all_eq_true.1 hs _ (Dict.get?_mem q1)
      rw [decide_eq_true_eq] at hq
      have hp : ∀ k < Nat.factorial f.adicity, pre f.adicity (P k).get H ∈ layerPlaces f.adicity (coef f f.adicity) (ones f.adicity H) (coef f f.adicity (pre f.adicity (P k).get H)) :=
        fun k hk => mem_layerPlaces.2 ⟨pre_lt _ _ _, ones_pre (below_of_index hk (hP k)) H, rfl⟩
      have h0 := hp 0 (Nat.factorial_pos _)
      have hd' := hp d hd
      rcases hq with hq | hq
      · rw [q2] at hq
        cases e1 : coef f f.adicity (pre f.adicity (P 0).get H) <;> cases e2 : coef f f.adicity (pre f.adicity (P d).get H) <;> rw [e1] at h0 <;> rw [e2] at hd' <;> simp_all
      · rw [q3] at hq
        cases e1 : coef f f.adicity (pre f.adicity (P 0).get H) <;> cases e2 : coef f f.adicity (pre f.adicity (P d).get H) <;> rw [e1] at h0 <;> rw [e2] at hd' <;> simp_all
    · rw [testBit_of_lt (Z_lt _ _) (by omega), testBit_of_lt (Z_lt _ _) (by omega)]
  · rw [if_neg hs] at hmain
    have hpos := Nat.two_pow_pos f.adicity
    have hI0 : Inv (· < Nat.factorial f.adicity) (fun c => Z (g c) f.adicity) g (2 ^ f.adicity) none := by
      constructor
      · intro c
        refine ⟨fun h => ⟨h, fun d _ => ?_⟩, fun h => h.1⟩
        simp only
        rw [Nat.shiftRight_eq_div_pow, Nat.div_eq_of_lt (Z_lt _ _)]
        exact Nat.zero_le _
      · rw [List.all_eq_true] at hs
        push Not at hs
        obtain ⟨⟨w, q⟩, hwq, hq⟩ := hs
        have hq : ¬ (q = 0 ∨ q = 1) := fun h => hq (decide_eq_true h)
        rw [not_or] at hq
        have hw : w ∈ ratios.keys := List.mem_map.2 ⟨_, hwq, rfl⟩
        rw [hl.keys, List.mem_range] at hw
        obtain ⟨q', r1, r2, r3⟩ := hl.ratio w (by omega)
        have := Dict.mem_get? (k := w) (v := q) (by rw [hl.keys]; exact List.nodup_range) hwq
        rw [r1] at this
        obtain rfl := Option.some.inj this
        obtain ⟨K, hK⟩ := List.exists_mem_of_ne_nil _ (fun h => hq.1 (r2.2 h))
        obtain ⟨K', hK'⟩ := List.exists_mem_of_ne_nil _ (fun h => hq.2 (r3.2 h))
        obtain ⟨a1, a2, a3⟩ := mem_layerPlaces.1 hK
        obtain ⟨b1, b2, b3⟩ := mem_layerPlaces.1 hK'
        obtain ⟨k, hk, hk'⟩ := exists_pre a1 b1 (a2.trans b2.symm) hP
        refine ⟨0, k, Nat.factorial_pos _, hk, fun h => ?_⟩
        have e1 := hco k hk K'
        rw [hk', a3, ← h, hf0, b3] at e1
        cases e1
    have hI : Inv (· < Nat.factorial f.adicity) (fun c => Z (g c) f.adicity) g (2 ^ f.adicity - 1) none := by
      apply Inv.skip (i := 2 ^ f.adicity - 1) (by rw [Nat.sub_add_cancel hpos]; exact hI0) (coef f f.adicity (2 ^ f.adicity - 1))
      intro c hcl
      rw [hz c hcl _ (by omega), pre_full (below_of_index hcl (hP c))]
    obtain ⟨c, c1, c2⟩ := factionLoop_spec hl hP (fun k => (hg k).1) hz
      (fun c d hcl hdl h => Z_inj (hg c).2.1 (hg d).2.1 ((hg c).2.2.2 hcl) ((hg d).2.2.2 hdl) h) (2 ^ f.adicity - 1) (by omega) none hI
    refine ⟨c, c2.1, ?_, fun d hd => by simpa using c2.2 d hd⟩
    rw [hmain, ← c1, show 2 ^ f.adicity - (2 ^ f.adicity - 1) = 1 by omega]

end Verif.BF
