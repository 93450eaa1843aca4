import Verif.Boolf.Props49

/-!
# The minimal representative of a clan
-/

namespace Verif.BF
open Verif.Py Verif.BV Verif.P Verif.W Verif.SP
open Verif.A hiding Mat

theorem rowEntry_two_pow {W : List Nat} (hW : W.Nodup) {k x : Nat} (h : W[k]? = some x) : rowEntry W (2 ^ k) = 2 ^ x := by
  apply Nat.eq_of_testBit_eq
  intro y
  rw [Bool.eq_iff_iff, testBit_rowEntry hW, Nat.testBit_two_pow, decide_eq_true_eq]
  constructor
  · rintro ⟨k', h1, h2⟩
    rw [Nat.testBit_two_pow, decide_eq_true_eq] at h2
    subst h2
    rw [h] at h1
    exact Option.some.inj h1
  · rintro rfl
    exact ⟨k, h, by rw [Nat.testBit_two_pow, decide_eq_true rfl]⟩

theorem disj_rowEntry {W : List Nat} (hW : W.Nodup) {L : Nat} (h : ∀ x ∈ W, L.testBit x = false) (i : Nat) : disj (rowEntry W i) L = true := by
  rw [disj_iff]
  intro k hk
  obtain ⟨_, h1, _⟩ := (testBit_rowEntry hW _ _).1 hk
  exact h k (List.mem_of_getElem? h1)

/-- The assertion on the keys fails, unless python iterates in ascending order. -/
theorem blueKeys_sorted {order : List Nat → List Nat} {n L : Nat} (ho : (order (freeAtoms L n)).Perm (freeAtoms L n)) :
    ((List.range (2 ^ (freeAtoms L n).length)).map (rowEntry (order (freeAtoms L n)))).map (· ^^^ L) =
        (List.range (2 ^ (freeAtoms L n).length)).map (fun i => L + rowEntry (order (freeAtoms L n)) i) ∧
      (((List.range (2 ^ (freeAtoms L n).length)).map fun i => L + rowEntry (order (freeAtoms L n)) i) =
        sorted ((List.range (2 ^ (freeAtoms L n).length)).map fun i => L + rowEntry (order (freeAtoms L n)) i) ↔ order (freeAtoms L n) = freeAtoms L n) := by
  have hasc := freeAtoms_asc L n
  have hnd : (order (freeAtoms L n)).Nodup := ho.nodup_iff.2 (hasc.imp (fun h => Nat.ne_of_lt h))
  have hlen : (order (freeAtoms L n)).length = (freeAtoms L n).length := ho.length_eq
  constructor
  · rw [List.map_map]
    apply List.map_congr_left
    intro i _
    simp only [Function.comp]
    exact xor_of_disj (disj_rowEntry hnd (fun x hx => (mem_freeAtoms.1 (ho.mem_iff.1 hx)).2) i)
  · constructor
    · intro h
      have hp := sorted_pairwise ((List.range (2 ^ (freeAtoms L n).length)).map fun i => L + rowEntry (order (freeAtoms L n)) i)
      rw [← h] at hp
      apply eq_of_perm_of_le ho _ (hasc.imp Nat.le_of_lt)
      rw [List.pairwise_iff_getElem]
      intro i j hi hj hij
      have h1 : 2 ^ i < 2 ^ (freeAtoms L n).length := Nat.pow_lt_pow_right (by omega) (by omega)
      have h2 : 2 ^ j < 2 ^ (freeAtoms L n).length := Nat.pow_lt_pow_right (by omega) (by omega)
      have := List.pairwise_iff_getElem.1 hp (2 ^ i) (2 ^ j) (by simpa using h1) (by simpa using h2) (Nat.pow_lt_pow_right (by omega) hij)
      simp only [List.getElem_map, List.getElem_range] at this
      rw [rowEntry_two_pow hnd (List.getElem?_eq_getElem hi), rowEntry_two_pow hnd (List.getElem?_eq_getElem hj)] at this
      exact (Nat.pow_le_pow_iff_right (a := 2) (by omega)).1 (by omega)
    · intro h
      rw [h]
      symm
      apply sorted_eq_of_perm (List.Perm.refl _)
      rw [List.pairwise_map]
      apply List.Pairwise.imp_of_mem _ List.pairwise_lt_range
      intro i j _ hj hij
      have := rowEntry_lt hasc (List.mem_range.1 hj) hij
      omega

theorem clanLoop_spec {f : Boolf} (order : List Nat → List Nat) {n : Nat} (hord : ∀ L < 2 ^ n, (order (freeAtoms L n)).Perm (freeAtoms L n)) {a : Nat → Bool}
    {layers : Dict Nat (List Nat × List Nat)} {ratios : Dict Nat Rat} (hl : Layers n a layers ratios) {P : Nat → Perm} (hP : ∀ k, intToPerm k = .ok (P k))
    {g : Nat × Nat → Boolf} {z : Nat × Nat → Nat} (hm : ∀ c, f.pairMember c.1 c.2 = .ok (g c))
    (hz : ∀ c : Nat × Nat, c.1 < 2 ^ n ∧ c.2 < Nat.factorial n → ∀ L < 2 ^ n, (z c).testBit L = nsum n c.1 (fun H => a (pre n (P c.2).get H)) L)
    (hg : ∀ c d : Nat × Nat, c.1 < 2 ^ n ∧ c.2 < Nat.factorial n → d.1 < 2 ^ n ∧ d.2 < Nat.factorial n → z c = z d → g c = g d) (i : Nat) (hi : i ≤ 2 ^ n)
    (st : Option (List (Nat × Nat))) (rows : Dict Nat (List Nat)) (hr : RowsInv n a P rows) (hI : Inv (fun c => c.1 < 2 ^ n ∧ c.2 < Nat.factorial n) z g i st) :
    (f.clanMinrepLoop order n (2 ^ n) (Nat.factorial n) layers ratios (List.range' (2 ^ n - i) i) st rows = .error .assertion ∧
        ∃ L < 2 ^ n, order (freeAtoms L n) ≠ freeAtoms L n) ∨
      ∃ c, f.clanMinrepLoop order n (2 ^ n) (Nat.factorial n) layers ratios (List.range' (2 ^ n - i) i) st rows = .ok (some (g c)) ∧
        Least (fun c => c.1 < 2 ^ n ∧ c.2 < Nat.factorial n) z 0 c := by
  induction i generalizing st rows with
  | zero => exact (hI.zero_false hg).elim
  | succ i ih =>
    have ih := ih (by omega)
    have hL : i < 2 ^ n := by omega
    have hlist : List.range' (2 ^ n - (i + 1)) (i + 1) = (2 ^ n - (i + 1)) :: List.range' (2 ^ n - i) i := by
      rw [List.range'_succ, show 2 ^ n - (i + 1) + 1 = 2 ^ n - i by omega]
    have hleft : 2 ^ n - (2 ^ n - (i + 1)) - 1 = i := by omega
    obtain ⟨b1, b2⟩ := blueKeys_sorted (hord i hL)
    rw [hlist]
    unfold Boolf.clanMinrepLoop
    simp only [hleft]
    rw [intToSierpinskiRow_spec order hL (hord i hL).length_eq]
    simp only [bind, Except.bind]
    rw [b1]
    by_cases hs : order (freeAtoms i n) = freeAtoms i n
    · rw [if_pos (b2.2 hs), hs]
      have hnd : (freeAtoms i n).Nodup := (freeAtoms_asc i n).imp (fun h => Nat.ne_of_lt h)
      obtain ⟨rows', r1, r2, r3⟩ := blueRows_all hl hP ((List.range (2 ^ (freeAtoms i n).length)).map fun j => i + rowEntry (freeAtoms i n) j) (by
        intro key hkey
        obtain ⟨j, _, rfl⟩ := List.mem_map.1 hkey
        exact add_rowEntry_lt hnd hL (fun x hx => mem_freeAtoms.1 hx) j) rows hr
      rw [r1]
      simp only
      obtain ⟨cols, bigs, S, s1, s2, s3⟩ := applicants_spec hL r2 (fun j hj => r3 _ (List.mem_map.2 ⟨j, List.mem_range.2 hj, rfl⟩))
      rw [s1]
      simp only
      rw [s2]
      simp only
      have hS : ∀ c, c ∈ S ↔ (c.1 < 2 ^ n ∧ c.2 < Nat.factorial n) ∧ (z c).testBit i = false := by
        intro c
        rw [s3]
        constructor
        · rintro ⟨h, h'⟩; exact ⟨h, by rw [hz c h i hL]; exact h'⟩
        · rintro ⟨h, h'⟩; exact ⟨h, by rw [← hz c h i hL]; exact h'⟩
      by_cases hSe : S = []
      · rw [if_pos (by simp [hSe])]
        apply ih st rows' r2 (hI.skip true fun c hc => ?_)
        by_contra hb
        have := (hS c).2 ⟨hc, by simpa using hb⟩
        rw [hSe] at this
        simp at this
      · rw [if_neg (by simpa using hSe)]
        have hnew : ∀ c, c ∈ narrow st S ↔ InState (fun c => c.1 < 2 ^ n ∧ c.2 < Nat.factorial n) st c ∧ (z c).testBit i = false := by
          intro c
          cases st with
          | none => exact hS c
          | some all =>
            simp only [narrow, InState, List.mem_filter, List.contains_iff_mem, hS]
            constructor
            · rintro ⟨h, _, h'⟩; exact ⟨h, h'⟩
            · rintro ⟨h, h'⟩; exact ⟨h, ((hI.least c).1 h).1, h'⟩
        generalize hN : narrow st S = N at hnew ⊢
        by_cases h3 : (st.isSome && N.isEmpty) = true
        · rw [if_pos h3]
          simp only [Bool.and_eq_true, List.isEmpty_iff] at h3
          obtain ⟨all, rfl⟩ := Option.isSome_iff_exists.1 h3.1
          apply ih (some all) rows' r2 (hI.ignore fun c hc => ?_)
          by_contra hcb
          have := (hnew c).2 ⟨hc, by simpa using hcb⟩
          rw [h3.2] at this
          simp at this
        · rw [if_neg h3]
          have hNne : N ≠ [] := by
            intro hnil
            cases st with
            | none => exact hSe (hN.trans hnil)
            | some all => rw [hnil] at h3; simp at h3
          rcases hI.check hnew hNne (member := fun c => f.pairMember c.1 c.2) (fun c _ => hm c) with ⟨c, k1, k2⟩ | ⟨k1, k2⟩
          · exact .inr ⟨c, by rw [k1]; rfl, k2⟩
          · rw [k1]
            exact ih (some N) rows' r2 k2
    · rw [if_neg (fun h => hs (b2.1 h))]
      exact .inl ⟨rfl, i, hL, hs⟩

/-- the members for the pairs of a negation and a permutation of the atoms -/
theorem clanMembers {f : Boolf} (hf : Canon f) (hc : f.isConstant = false) :
    ∃ (P : Nat → Perm) (g : Nat × Nat → Boolf), (∀ k, intToPerm k = .ok (P k)) ∧ ∀ c : Nat × Nat, f.pairMember c.1 c.2 = .ok (g c) ∧ Canon (g c) ∧
      (∀ a, (g c).eval a = f.eval fun x => a ((P c.2).get x) ^^ c.1.testBit ((P c.2).get x)) ∧ (c.2 < Nat.factorial f.adicity → (g c).adicity ≤ f.adicity) := by
  obtain ⟨P, hP⟩ := perms_exist
  have : ∀ c : Nat × Nat, ∃ g, f.pairMember c.1 c.2 = .ok g ∧ Canon g ∧ (∀ a, g.eval a = f.eval fun x => a ((P c.2).get x) ^^ c.1.testBit ((P c.2).get x)) ∧
      (c.2 < Nat.factorial f.adicity → g.adicity ≤ f.adicity) := by
    intro c
    obtain ⟨g, p, g1, p1, _, _, g2⟩ := pairMember_spec hf.good hc c.1 c.2
    obtain rfl : P c.2 = p := Except.ok.inj ((hP c.2).symm.trans p1)
    refine ⟨g, g1, g2.1, fun a => ?_, fun hk => lits_adicity g2 fun x hx => ?_⟩
    · rw [g2.2]
      congr 1
      funext x
      rw [lit_slit]
    · exact (below_of_index hk (hP c.2)).lt x (hf.toSound.adic_lt hx)
  choose g hg using this
  exact ⟨P, g, hP, hg⟩

/-- the start of the search -/
theorem clan_start {f : Boolf} (hf : Canon f) (hc : f.isConstant = false) :
    ∃ (P : Nat → Perm) (g : Nat × Nat → Boolf) (t : Boolf) (b : Binv) (layers : Dict Nat (List Nat × List Nat)) (ratios : Dict Nat Rat),
      (∀ k, intToPerm k = .ok (P k)) ∧
      (∀ c : Nat × Nat, f.pairMember c.1 c.2 = .ok (g c) ∧ Canon (g c) ∧
        (∀ a, (g c).eval a = f.eval fun x => a ((P c.2).get x) ^^ c.1.testBit ((P c.2).get x)) ∧ (c.2 < Nat.factorial f.adicity → (g c).adicity ≤ f.adicity)) ∧
      f.twin = .ok t ∧ t.tt (.arity f.adicity) = .ok b ∧ flatToPlaces b.vector = .ok layers ∧ layerRatios layers = .ok ratios ∧ Layers f.adicity (coef f f.adicity) layers ratios ∧
      (∀ c : Nat × Nat, c.1 < 2 ^ f.adicity ∧ c.2 < Nat.factorial f.adicity → ∀ L < 2 ^ f.adicity,
        (Z (g c) f.adicity).testBit L = nsum f.adicity c.1 (fun H => coef f f.adicity (pre f.adicity (P c.2).get H)) L) ∧
      Inv (fun c : Nat × Nat => c.1 < 2 ^ f.adicity ∧ c.2 < Nat.factorial f.adicity) (fun c => Z (g c) f.adicity) g (2 ^ f.adicity - 1) none := by
  obtain ⟨P, g, hP, hg⟩ := clanMembers hf hc
  obtain ⟨t, t1, t2⟩ := twin_row hf.toSound
  obtain ⟨layers, ratios, l1, l2, hl⟩ := layers_exist f.adicity (coef f f.adicity)
  have hpos := Nat.two_pow_pos f.adicity
  have hco : ∀ c : Nat × Nat, c.1 < 2 ^ f.adicity ∧ c.2 < Nat.factorial f.adicity → ∀ L < 2 ^ f.adicity,
      coef (g c) f.adicity L = nsum f.adicity c.1 (fun H => coef f f.adicity (pre f.adicity (P c.2).get H)) L := by
    intro c hcU L hL
    have hz0 : ∀ H, coef (g (0, c.2)) f.adicity H = coef f f.adicity (pre f.adicity (P c.2).get H) := by
      intro H
      apply coef_renamed hf.toSound le_rfl (below_of_index hcU.2 (hP c.2))
      intro a
      rw [(hg (0, c.2)).2.2.1]
      simp
    rw [coef_negated (f := g (0, c.2)) hcU.1 (fun j => ?_) hL, funext hz0]
    rw [(hg c).2.2.1, (hg (0, c.2)).2.2.1]
    simp [Nat.testBit_xor]
  have hz : ∀ c : Nat × Nat, c.1 < 2 ^ f.adicity ∧ c.2 < Nat.factorial f.adicity → ∀ L < 2 ^ f.adicity,
      (Z (g c) f.adicity).testBit L = nsum f.adicity c.1 (fun H => coef f f.adicity (pre f.adicity (P c.2).get H)) L := by
    intro c hcU L hL
    rw [testBit_Z hL, hco c hcU L hL]
  have hI0 : Inv (fun c : Nat × Nat => c.1 < 2 ^ f.adicity ∧ c.2 < Nat.factorial f.adicity) (fun c => Z (g c) f.adicity) g (2 ^ f.adicity) none := by
    constructor
    · intro c
      refine ⟨fun h => ⟨h, fun d _ => ?_⟩, fun h => h.1⟩
      simp only
      rw [Nat.shiftRight_eq_div_pow, Nat.div_eq_of_lt (Z_lt _ _)]
      exact Nat.zero_le _
    · obtain ⟨x, hx, a, ha⟩ := negation_differs hf hc
      refine ⟨(0, 0), (2 ^ x, 0), ⟨hpos, Nat.factorial_pos _⟩, ⟨Nat.pow_lt_pow_right (by omega) (hf.toSound.adic_lt hx), Nat.factorial_pos _⟩, fun h => ha ?_⟩
      obtain ⟨p, p1, p2⟩ := intToPerm_zero
      obtain rfl : P 0 = p := Except.ok.inj ((hP 0).symm.trans p1)
      have h0 := (hg (0, 0)).2.2.1 a
      have h1 := (hg (2 ^ x, 0)).2.2.1 a
      rw [h, h1] at h0
      simp only [Nat.zero_testBit, Bool.xor_false, p2] at h0
      rw [← h0]
      congr 1
      funext y
      rw [Nat.testBit_two_pow]
      congr 1
      exact decide_eq_decide.2 ⟨fun h => h.symm, fun h => h.symm⟩
  have hI : Inv (fun c : Nat × Nat => c.1 < 2 ^ f.adicity ∧ c.2 < Nat.factorial f.adicity) (fun c => Z (g c) f.adicity) g (2 ^ f.adicity - 1) none := by
    apply Inv.skip (i := 2 ^ f.adicity - 1) (by rw [Nat.sub_add_cancel hpos]; exact hI0) (coef f f.adicity (2 ^ f.adicity - 1))
    intro c hcU
    have hfree : freeAtoms (2 ^ f.adicity - 1) f.adicity = [] := by
      rw [List.eq_nil_iff_forall_not_mem]
      intro x hx
      obtain ⟨h1, h2⟩ := mem_freeAtoms.1 hx
      rw [Nat.testBit_two_pow_sub_one, decide_eq_true h1] at h2
      cases h2
    rw [hz c hcU _ (by omega), nsum_twin, hfree, List.length_nil, subXor_zero, rowEntry_zero List.nodup_nil, Nat.add_zero, pre_full (below_of_index hcU.2 (hP c.2))]
  exact ⟨P, g, t, _, layers, ratios, hP, hg, t1, t2, l1, l2, hl, hz, hI⟩

theorem clanMinrep_spec {f : Boolf} (hf : Canon f) (hc : f.isConstant = false) (order : List Nat → List Nat)
    (hord : ∀ L < 2 ^ f.adicity, (order (freeAtoms L f.adicity)).Perm (freeAtoms L f.adicity)) :
    (f.clanMinrep order = .error .assertion ∧ ∃ L < 2 ^ f.adicity, order (freeAtoms L f.adicity) ≠ freeAtoms L f.adicity) ∨
    ∃ (P : Nat → Perm) (g : Nat × Nat → Boolf), (∀ k, intToPerm k = .ok (P k)) ∧
      (∀ c : Nat × Nat, c.1 < 2 ^ f.adicity ∧ c.2 < Nat.factorial f.adicity → Canon (g c) ∧
        (∀ a, (g c).eval a = f.eval fun x => a ((P c.2).get x) ^^ c.1.testBit ((P c.2).get x)) ∧ (g c).adicity ≤ f.adicity) ∧
      ∃ c : Nat × Nat, (c.1 < 2 ^ f.adicity ∧ c.2 < Nat.factorial f.adicity) ∧ f.clanMinrep order = .ok (some (g c)) ∧
        ∀ d : Nat × Nat, d.1 < 2 ^ f.adicity ∧ d.2 < Nat.factorial f.adicity → Z (g c) f.adicity ≤ Z (g d) f.adicity := by
  obtain ⟨P, g, t, b, layers, ratios, hP, hg, t1, t2, l1, l2, hl, hz, hI⟩ := clan_start hf hc
  have hpos := Nat.two_pow_pos f.adicity
  have hmain : f.clanMinrep order =
      f.clanMinrepLoop order f.adicity (2 ^ f.adicity) (Nat.factorial f.adicity) layers ratios (List.range' (2 ^ f.adicity - (2 ^ f.adicity - 1)) (2 ^ f.adicity - 1)) none [] := by
    unfold Boolf.clanMinrep
    rw [if_neg (by simp [hc]), t1]
    simp only [bind, Except.bind]
    rw [t2]
    simp only [l1, l2, Nat.one_shiftLeft]
    rw [show 2 ^ f.adicity - (2 ^ f.adicity - 1) = 1 by omega]
  rw [hmain]
  rcases clanLoop_spec order hord hl hP (fun c => (hg c).1) hz
    (fun c d hcl hdl h => Z_inj (hg c).2.1 (hg d).2.1 ((hg c).2.2.2 hcl.2) ((hg d).2.2.2 hdl.2) h) (2 ^ f.adicity - 1) (by omega) none [] (fun key l h => by simp [Dict.get?] at h) hI
    with h | ⟨c, c1, c2⟩
  · exact .inl h
  · exact .inr ⟨P, g, hP, fun c hcU => ⟨(hg c).2.1, (hg c).2.2.1, (hg c).2.2.2 hcU.2⟩, c, c2.1, c1, fun d hd => by simpa using c2.2 d hd⟩

end Verif.BF
