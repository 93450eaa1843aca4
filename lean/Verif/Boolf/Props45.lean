import Verif.Boolf.Props44
import Mathlib.Tactic.IntervalCases

/-!
# Minimal representatives of families: C99
-/

namespace Verif.BF
open Verif.Py Verif.BV Verif.P Verif.W Verif.SP
open Verif.A hiding Mat

theorem intToPerm_zero : ∃ p, intToPerm 0 = .ok p ∧ ∀ x, p.get x = x := by
  have h : (revColexPerms 0)[0]? = some [] := rfl
  obtain ⟨_, p, p1, p2, p3, p4, _, p', h1, h2⟩ := perm_at h
  exact ⟨p', h1, fun x => by rw [h2]; exact p2.wf.finite_bounded p3 (by omega)⟩

/-- the members of the family -/
theorem familyMembers {f : Boolf} (hf : Canon f) (hc : f.isConstant = false) :
    ∃ g : Nat → Boolf, ∀ m, f.pairMember m 0 = .ok (g m) ∧ Canon (g m) ∧ (∀ a, (g m).eval a = f.eval fun x => a x ^^ m.testBit x) ∧ (g m).adicity ≤ f.adicity := by
  have h : ∀ m, ∃ g, f.pairMember m 0 = .ok g ∧ Canon g ∧ (∀ a, g.eval a = f.eval fun x => a x ^^ m.testBit x) ∧ g.adicity ≤ f.adicity := by
    intro m
    obtain ⟨g, p, g1, p1, _, _, g2⟩ := pairMember_spec hf.good hc m 0
    obtain ⟨p', q1, q2⟩ := intToPerm_zero
    obtain rfl : p = p' := Except.ok.inj (p1.symm.trans q1)
    have g2 := g2.congr (w' := fun x => slit (m.testBit x) (x : Nat)) (fun x _ => by rw [q2])
    exact ⟨g, g1, g2.1, fun a => by rw [g2.2]; simp only [lit_slit], lits_adicity (r := fun x => x) (s := fun x => m.testBit x) g2 (fun x hx => hf.toSound.adic_lt hx)⟩
  choose g hg using h
  exact ⟨g, hg⟩

theorem twin_row {f : Boolf} (hf : Sound f) :
    ∃ g, f.twin = .ok g ∧ g.tt (.arity f.adicity) = .ok ⟨(List.range (2 ^ f.adicity)).map (coef f f.adicity)⟩ := by
  obtain ⟨g, g1, g2, _, g4, g5⟩ := twin_spec hf (n := f.adicity) le_rfl
  refine ⟨g, by rw [← g1]; unfold Boolf.twin; simp, ?_⟩
  rw [tt_arity_eq g2.toSound g4]
  congr 2
  apply List.map_congr_left
  intro j hj
  exact g5 j (List.mem_range.1 hj)

theorem rowItem {n : Nat} (a : Nat → Bool) {j : Nat} (hj : j < 2 ^ n) : (⟨(List.range (2 ^ n)).map a⟩ : Binv).getItem j = .ok (a j) := by
  unfold Binv.getItem
  simp only
  rw [List.getElem?_map, List.getElem?_range hj]
  rfl

theorem bsum_zero {l : List Bool} : bsum l = 0 ↔ ∀ b ∈ l, b = false := by
  induction l with
  | nil => simp [bsum]
  | cons b l ih =>
    have : bsum (b :: l) = b.toNat + bsum l := by simp [bsum]
    rw [this]
    cases b <;> simp [ih]

theorem mem_stepCandidates {l : List Bool} {c : Nat} : c ∈ (l.zipIdx.filter fun vk => !vk.1).map Prod.snd ↔ l[c]? = some false := by
  rw [List.mem_map]
  constructor
  · rintro ⟨⟨v, k⟩, h, rfl⟩
    rw [List.mem_filter, List.mem_zipIdx_iff_getElem?] at h
    obtain ⟨h1, h2⟩ := h
    rw [h1]
    simpa using h2
  · intro h
    exact ⟨(false, c), List.mem_filter.2 ⟨List.mem_zipIdx_iff_getElem?.2 h, rfl⟩, rfl⟩

theorem add_rowEntry_lt {A : List Nat} (hA : A.Nodup) {L n : Nat} (hL : L < 2 ^ n) (h : ∀ x ∈ A, x < n ∧ L.testBit x = false) (i : Nat) : L + rowEntry A i < 2 ^ n := by
  have h1 : rowEntry A i ≤ 2 ^ n - (L + 1) := by
    apply le_of_sub
    intro k hk
    obtain ⟨_, i1, _⟩ := (testBit_rowEntry hA _ _).1 hk
    have := h k (List.mem_of_getElem? i1)
    rw [Nat.testBit_two_pow_sub_succ hL, decide_eq_true this.1, this.2]
    rfl
  omega

/-- a column as the code makes it -/
theorem column_spec (order : List Nat → List Nat) {n L : Nat} (hL : L < 2 ^ n) (ho : (order (freeAtoms L n)).Perm (freeAtoms L n)) (a : Nat → Bool) :
    intToSierpinskiRow order (2 ^ n - (L + 1)) = .ok ((List.range (2 ^ (freeAtoms L n).length)).map (rowEntry (order (freeAtoms L n)))) ∧
    ((List.range (2 ^ (freeAtoms L n).length)).map (rowEntry (order (freeAtoms L n)))).mapM (fun place => (⟨(List.range (2 ^ n)).map a⟩ : Binv).getItem (L + place)) =
      .ok ((List.range (2 ^ (freeAtoms L n).length)).map fun i => a (L + rowEntry (order (freeAtoms L n)) i)) ∧
    sierpinskiTwin ((List.range (2 ^ (freeAtoms L n).length)).map fun i => a (L + rowEntry (order (freeAtoms L n)) i)) L n =
      .ok ((List.range (2 ^ n)).map fun c => subXor (freeAtoms L n).length (fun i => a (L + rowEntry (order (freeAtoms L n)) i)) (comp (freeAtoms L n) c)) := by
  have hnd : (order (freeAtoms L n)).Nodup := ho.nodup_iff.2 ((freeAtoms_asc L n).imp (fun h => Nat.ne_of_lt h))
  refine ⟨intToSierpinskiRow_spec order hL ho.length_eq, ?_, ?_⟩
  · rw [mapM_ok (g := fun place => a (L + place)), List.map_map]
    · rfl
    · intro p hp
      obtain ⟨i, _, rfl⟩ := List.mem_map.1 hp
      exact rowItem a (add_rowEntry_lt hnd hL (fun x hx => mem_freeAtoms.1 (ho.mem_iff.1 hx)) i)
  · rw [sierpinskiTwin_spec hL _ (by simp)]
    congr 1
    apply List.map_congr_left
    intro c _
    apply subXor_congr
    intro i hi
    rw [List.getD_eq_getElem?_getD, List.getElem?_map, List.getElem?_range hi]
    rfl

theorem subXor_only_zero {n : Nat} {v : Nat → Bool} (h : ∀ i < 2 ^ n, 0 < i → v i = false) (j : Nat) : subXor n v j = v 0 := by
  rw [subXor_congr (w := fun i => v 0 && decide (i = 0)), subXor_and_left, subXor_delta, Bool.and_true]
  intro i hi
  by_cases h0 : i = 0
  · subst h0; simp
  · rw [h i hi (by omega), decide_eq_false h0, Bool.and_false]

theorem rowEntry_zero {A : List Nat} (hA : A.Nodup) : rowEntry A 0 = 0 := by
  apply Nat.eq_of_testBit_eq
  intro k
  rw [Nat.zero_testBit, Bool.eq_false_iff, ne_eq, testBit_rowEntry hA]
  rintro ⟨_, _, h⟩
  rw [Nat.zero_testBit] at h
  cases h

/-- the values after the first one -/
theorem tail_false {m : Nat} {v : Nat → Bool} : bsum (((List.range (2 ^ m)).map v).drop 1) = 0 ↔ ∀ i < 2 ^ m, 0 < i → v i = false := by
  rw [bsum_zero]
  constructor
  · intro h i hi h0
    apply h
    apply List.mem_of_getElem? (i := i - 1)
    rw [List.getElem?_drop, show 1 + (i - 1) = i by omega, List.getElem?_map, List.getElem?_range hi]
    rfl
  · intro h b hb
    obtain ⟨i, hi⟩ := List.mem_iff_getElem?.1 hb
    rw [List.getElem?_drop, List.getElem?_map] at hi
    by_cases hlt : 1 + i < 2 ^ m
    · rw [List.getElem?_range hlt] at hi
      rw [← h (1 + i) hlt (by omega)]
      exact (Option.some.inj hi).symm
    · rw [List.getElem?_eq_none (by simpa using hlt)] at hi
      cases hi

/-- The loop over the columns returns the member of a candidate with the least Zhegalkin index. -/
theorem familyLoop_spec {f : Boolf} (order : List Nat → List Nat) {n : Nat} (hord : ∀ L < 2 ^ n, order (freeAtoms L n) = freeAtoms L n) {a : Nat → Bool}
    {g : Nat → Boolf} {z : Nat → Nat} (hm : ∀ c, f.pairMember c 0 = .ok (g c)) (hz : ∀ c < 2 ^ n, ∀ L < 2 ^ n, (z c).testBit L = nsum n c a L)
    (hg : ∀ c d, c < 2 ^ n → d < 2 ^ n → z c = z d → g c = g d) (i : Nat) (hi : i ≤ 2 ^ n) (st : Option (List Nat)) (snooze : Bool)
    (hI : Inv (· < 2 ^ n) z g i st) (hs : snooze = true → ∀ j, i ≤ j → j < 2 ^ n → a j = false) :
    ∃ c, f.familyMinrepLoop order n (2 ^ n) ⟨(List.range (2 ^ n)).map a⟩ (List.range' (2 ^ n - i) i) st snooze = .ok (some (g c)) ∧ Least (· < 2 ^ n) z 0 c := by
  induction i generalizing st snooze with
  | zero => exact (hI.zero_false hg).elim
  | succ i ih =>
    have ih := ih (by omega)
    have hL : i < 2 ^ n := by omega
    have hnd : (freeAtoms i n).Nodup := (freeAtoms_asc i n).imp (fun h => Nat.ne_of_lt h)
    have hlist : List.range' (2 ^ n - (i + 1)) (i + 1) = (2 ^ n - (i + 1)) :: List.range' (2 ^ n - i) i := by
      rw [List.range'_succ, show 2 ^ n - (i + 1) + 1 = 2 ^ n - i by omega]
    have hleft : 2 ^ n - (2 ^ n - (i + 1)) - 1 = i := by omega
    obtain ⟨c1, c2, c3⟩ := column_spec order hL (by rw [hord i hL]) a
    rw [hord i hL] at c1 c2 c3
    have hbit : ∀ c < 2 ^ n, (z c).testBit i = subXor (freeAtoms i n).length (fun k => a (i + rowEntry (freeAtoms i n) k)) (comp (freeAtoms i n) c) := by
      intro c hc
      rw [hz c hc i hL, nsum_twin]
    rw [hlist]
    unfold Boolf.familyMinrepLoop
    simp only [hleft]
    rw [rowItem a hL]
    simp only [bind, Except.bind]
    by_cases h1 : (snooze && !a i) = true
    · rw [if_pos h1]
      simp only [Bool.and_eq_true, Bool.not_eq_true'] at h1
      have hs' : ∀ j, i ≤ j → j < 2 ^ n → a j = false := by
        intro j hj hj2
        by_cases hji : j = i
        · rw [hji]; exact h1.2
        · exact hs h1.1 j (by omega) hj2
      apply ih st true (hI.skip false fun c hc => ?_) (fun _ => hs')
      rw [hbit c hc, subXor_congr (w := fun _ => false), subXor_false]
      intro k _
      exact hs' _ (by omega) (add_rowEntry_lt hnd hL (fun x hx => mem_freeAtoms.1 hx) k)
    · rw [if_neg h1, c1]
      simp only
      rw [c2]
      simp only
      by_cases h2 : bsum (((List.range (2 ^ (freeAtoms i n).length)).map fun k => a (i + rowEntry (freeAtoms i n) k)).drop 1) = 0
      · rw [if_pos h2]
        apply ih st false (hI.skip (a i) fun c hc => ?_) (by simp)
        rw [hbit c hc, subXor_only_zero (tail_false.1 h2), rowEntry_zero hnd, Nat.add_zero]
      · rw [if_neg h2, c3]
        simp only
        have hS : ∀ c, c ∈ (((List.range (2 ^ n)).map fun c => subXor (freeAtoms i n).length (fun k => a (i + rowEntry (freeAtoms i n) k))
            (comp (freeAtoms i n) c)).zipIdx.filter fun vk => !vk.1).map Prod.snd ↔ c < 2 ^ n ∧ (z c).testBit i = false := by
          intro c
          rw [mem_stepCandidates]
          by_cases hc : c < 2 ^ n
          · rw [List.getElem?_map, List.getElem?_range hc, hbit c hc]
            simp [hc]
          · rw [List.getElem?_eq_none (by simpa using hc)]
            simp [hc]
        generalize (((List.range (2 ^ n)).map fun c => subXor (freeAtoms i n).length (fun k => a (i + rowEntry (freeAtoms i n) k))
            (comp (freeAtoms i n) c)).zipIdx.filter fun vk => !vk.1).map Prod.snd = S at hS ⊢
        have hSne : S ≠ [] := by
          intro hnil
          apply h2
          rw [tail_false]
          intro k hk h0
          have hall : ∀ j < 2 ^ (freeAtoms i n).length, subXor (freeAtoms i n).length (fun k => a (i + rowEntry (freeAtoms i n) k)) j = true := by
            intro j hj
            have hcl := rowEntry_bound hnd (fun x hx => (mem_freeAtoms.1 hx).1) j (n := n)
            have := hbit _ hcl
            rw [comp_rowEntry hnd hj] at this
            rw [← this]
            by_contra hc
            have := (hS (rowEntry (freeAtoms i n) j)).2 ⟨hcl, by simpa using hc⟩
            rw [hnil] at this
            simp at this
          have := subXor_subXor (freeAtoms i n).length (fun k => a (i + rowEntry (freeAtoms i n) k)) hk
          rw [subXor_congr hall, subXor_true hk, decide_eq_false (by omega)] at this
          exact this.symm
        have hnew : ∀ c, c ∈ narrow st S ↔ InState (· < 2 ^ n) st c ∧ (z c).testBit i = false := by
          intro c
          cases st with
          | none => exact hS c
          | some all =>
            simp only [narrow, InState, List.mem_filter, List.contains_iff_mem, hS]
            constructor
            · rintro ⟨h, _, h'⟩; exact ⟨h, h'⟩
            · rintro ⟨h, h'⟩; exact ⟨h, ((hI.least c).1 h).1, h'⟩
        generalize hN : narrow st S = N at hnew ⊢
        by_cases h3 : (st.isSome && N.isEmpty) = true
        · rw [if_pos h3]
          simp only [Bool.and_eq_true, List.isEmpty_iff] at h3
          obtain ⟨all, rfl⟩ := Option.isSome_iff_exists.1 h3.1
          apply ih (some all) false (hI.ignore fun c hc => ?_) (by simp)
          by_contra hcb
          have := (hnew c).2 ⟨hc, by simpa using hcb⟩
          rw [h3.2] at this
          simp at this
        · rw [if_neg h3]
          have hNne : N ≠ [] := by
            intro hnil
            cases st with
            | none => exact hSne (hN.trans hnil)
            | some all => rw [hnil] at h3; simp at h3
          rcases hI.check hnew hNne (member := fun c => f.pairMember c 0) (fun c _ => hm c) with ⟨c, k1, k2⟩ | ⟨k1, k2⟩
          · exact ⟨c, by rw [k1]; rfl, k2⟩
          · rw [k1]
            exact ih (some N) false k2 (by simp)

/-- the member for a set of negated atoms, as it is found by the search -/
theorem familyMinrep_spec {f : Boolf} (hf : Canon f) (hc : f.isConstant = false) (order : List Nat → List Nat)
    (hord : ∀ L < 2 ^ f.adicity, order (freeAtoms L f.adicity) = freeAtoms L f.adicity) :
    ∃ g : Nat → Boolf, (∀ m, Canon (g m) ∧ (∀ a, (g m).eval a = f.eval fun x => a x ^^ m.testBit x) ∧ (g m).adicity ≤ f.adicity) ∧
      ∃ c < 2 ^ f.adicity, f.familyMinrep order = .ok (some (g c)) ∧ ∀ d < 2 ^ f.adicity, Z (g c) f.adicity ≤ Z (g d) f.adicity := by
  obtain ⟨g, hg⟩ := familyMembers hf hc
  obtain ⟨t, t1, t2⟩ := twin_row hf.toSound
  have hz : ∀ c < 2 ^ f.adicity, ∀ L < 2 ^ f.adicity, (Z (g c) f.adicity).testBit L = nsum f.adicity c (coef f f.adicity) L := by
    intro c hcl L hL
    rw [testBit_Z hL]
    exact coef_negated hcl (fun j => by rw [(hg c).2.2.1, xor_testBit]) hL
  have hI : Inv (· < 2 ^ f.adicity) (fun c => Z (g c) f.adicity) g (2 ^ f.adicity) none := by
    constructor
    · intro c
      refine ⟨fun h => ⟨h, fun d _ => ?_⟩, fun h => h.1⟩
      simp only
      rw [Nat.shiftRight_eq_div_pow, Nat.div_eq_of_lt (Z_lt _ _)]
      exact Nat.zero_le _
    · obtain ⟨x, hx, a, ha⟩ := negation_differs hf hc
      refine ⟨0, 2 ^ x, Nat.two_pow_pos _, Nat.pow_lt_pow_right (by omega) (hf.toSound.adic_lt hx), fun h => ha ?_⟩
      have h0 := (hg 0).2.2.1 a
      have h1 := (hg (2 ^ x)).2.2.1 a
      rw [h, h1] at h0
      simp only [Nat.zero_testBit, Bool.xor_false] at h0
      rw [← h0]
      congr 1
      funext y
      rw [Nat.testBit_two_pow]
      congr 1
      exact decide_eq_decide.2 ⟨fun h => h.symm, fun h => h.symm⟩
  obtain ⟨c, c1, c2⟩ := familyLoop_spec order hord (a := coef f f.adicity) (fun m => (hg m).1) hz
    (fun c d _ _ h => Z_inj (hg c).2.1 (hg d).2.1 (hg c).2.2.2 (hg d).2.2.2 h) (2 ^ f.adicity) le_rfl none true hI (fun _ j h1 h2 => by omega)
  refine ⟨g, fun m => (hg m).2, c, c2.1, ?_, fun d hd => by simpa using c2.2 d hd⟩
  unfold Boolf.familyMinrep
  rw [if_neg (by simp [hc]), t1]
  simp only [bind, Except.bind]
  rw [t2]
  simp only
  rw [Nat.one_shiftLeft]
  rw [Nat.sub_self, ← List.range_eq_range'] at c1
  exact c1

/-- python iterates over sets of numbers below `n` in ascending order -/
def Ascending (order : List Nat → List Nat) (n : Nat) : Prop := ∀ l : List Nat, l.Pairwise (· < ·) → (∀ x ∈ l, x < n) → order l = l

/-- **C99.** `family_minrep` is the function with the least Zhegalkin index among those that arise by negating some atoms (if python iterates in ascending order
over sets of numbers below the adicity, which it does for an adicity up to 8). -/
theorem C99_family_minrep (order : List Nat → List Nat) (f : Boolf) (hf : Reach f) (ho : Ascending order f.adicity) :
    ∃ r z, f.familyMinrep order = .ok (some r) ∧ Reach r ∧ Negated f r ∧ r.zhe = .ok z ∧
      ∀ g, Reach g → Negated f g → ∃ z', g.zhe = .ok z' ∧ z ≤ z' ∧ (z' = z → g = r) := by
  have hcan := hf.canon
  by_cases hc : f.isConstant = true
  · obtain ⟨z, z1, _⟩ := zhe_spec hcan.toSound
    refine ⟨f, z, by unfold Boolf.familyMinrep; rw [if_pos hc], hf, ⟨0, fun key => by simp⟩, z1, fun g hg ⟨m, hm⟩ => ?_⟩
    have hA : f.atomvals = [] := by rw [hcan.const] at hc; simpa using hc
    have : g = f := by
      apply hg.canon.ext_key hcan
      intro key
      rw [hm, getItem_eq hcan.toSound, getItem_eq hcan.toSound]
      congr 1
      exact Boolf.eval_congr (by rw [hA]; simp)
    subst this
    exact ⟨z, z1, le_rfl, fun _ => rfl⟩
  · have hc : f.isConstant = false := by simpa using hc
    obtain ⟨g, hg, c, hcl, c1, c2⟩ := familyMinrep_spec hcan hc order (fun L _ => ho _ (freeAtoms_asc L _) (fun x hx => (mem_freeAtoms.1 hx).1))
    refine ⟨g c, _, c1, (hg c).1.reach, ⟨c, fun key => ?_⟩, zhe_Z (hg c).1.toSound (hg c).2.2, fun h hh ⟨m, hm⟩ => ?_⟩
    · rw [getItem_eq (hg c).1.toSound, getItem_eq hcan.toSound, (hg c).2.1, xor_testBit]
    · have : h = g (m % 2 ^ f.adicity) := by
        apply hh.canon.ext_key (hg _).1
        intro key
        rw [hm, getItem_eq hcan.toSound, getItem_eq (hg _).1.toSound, (hg _).2.1, xor_testBit]
        congr 1
        apply Boolf.eval_congr
        intro x hx
        rw [Nat.testBit_mod_two_pow, decide_eq_true (hcan.toSound.adic_lt hx), Bool.true_and]
      subst this
      exact ⟨_, zhe_Z (hg _).1.toSound (hg _).2.2, c2 _ (Nat.mod_lt _ (Nat.two_pow_pos _)), fun he => (Z_inj (hg _).1 (hg _).1 (hg _).2.2 (hg _).2.2 he)⟩

/-- The representative of the family of a disjunction is the negated conjunction. -/
example : ∃ f r, newTT (.str "0111".toList) = .ok f ∧ newTT (.str "1110".toList) = .ok r ∧ Reach f ∧ Ascending id f.adicity ∧ f.familyMinrep id = .ok (some r) := by
  obtain ⟨_, e1, e2⟩ := newTT_explicit "0111".toList [false, true, true, true] [0, 1] 2 (by decide) (by decide) (by decide) (by intro n; simp; omega) (by decide) (by decide)
  obtain ⟨_, e3, e4⟩ := newTT_explicit "1110".toList [true, true, true, false] [0, 1] 2 (by decide) (by decide) (by decide) (by intro n; simp; omega) (by decide) (by decide)
  exact ⟨_, _, e1 (by decide), e3 (by decide), e2.reach, fun _ _ _ => rfl, by decide +kernel⟩

theorem Negated.symm {f g : Boolf} (h : Negated f g) : Negated g f := by
  obtain ⟨m, hm⟩ := h
  exact ⟨m, fun key => by rw [hm, Nat.xor_assoc, Nat.xor_self, Nat.xor_zero]⟩

theorem Negated.trans {f g h : Boolf} (h1 : Negated f g) (h2 : Negated g h) : Negated f h := by
  obtain ⟨m, hm⟩ := h1
  obtain ⟨k, hk⟩ := h2
  exact ⟨k ^^^ m, fun key => by rw [hk, hm, Nat.xor_assoc]⟩

theorem Negated.adicity {f g : Boolf} (hf : Reach f) (hg : Reach g) (h : Negated f g) : g.adicity = f.adicity := by
  have key : ∀ {f g : Boolf}, Reach f → Reach g → Negated f g → g.adicity ≤ f.adicity := by
    intro f g hf hg ⟨m, hm⟩
    rw [hg.canon.adic]
    intro y hy
    obtain ⟨a, ha⟩ := (hg.canon.mem_iff y).1 hy
    have he : ∀ a, g.eval a = f.eval fun x => a x ^^ m.testBit x := by
      intro a
      obtain ⟨key, k1, k2⟩ : ∃ key : Nat, g.eval a = g.eval key.testBit ∧ ∀ x ∈ f.atomvals, key.testBit x = a x := by
        refine ⟨valB ((List.range (max f.adicity g.adicity)).map a), ?_, ?_⟩
        · apply Boolf.eval_congr
          intro x hx
          rw [testBit_valB_map, List.getElem?_range (lt_of_lt_of_le (hg.canon.toSound.adic_lt hx) (le_max_right _ _))]; rfl
        · intro x hx
          rw [testBit_valB_map, List.getElem?_range (lt_of_lt_of_le (hf.canon.toSound.adic_lt hx) (le_max_left _ _))]; rfl
      have := hm key
      rw [getItem_eq hg.canon.toSound, getItem_eq hf.canon.toSound, xor_testBit] at this
      rw [k1, Except.ok.inj this]
      exact Boolf.eval_congr fun x hx => by rw [k2 x hx]
    by_contra hc
    apply ha
    rw [he, he]
    apply Boolf.eval_congr
    intro x hx
    have := hf.canon.toSound.adic_lt hx
    unfold upd
    rw [if_neg (by omega), if_neg (by omega)]
  exact le_antisymm (key hf hg h) (key hg hf h.symm)

/-- **C99.** All members of a family have the same representative, and members of different families have different ones. -/
theorem C99_same_family (order : List Nat → List Nat) (f g : Boolf) (hf : Reach f) (hg : Reach g) (ho : Ascending order f.adicity) (ho' : Ascending order g.adicity) :
    f.familyMinrep order = g.familyMinrep order ↔ Negated f g := by
  obtain ⟨r, z, r1, r2, r3, r4, r5⟩ := C99_family_minrep order f hf ho
  obtain ⟨s, y, s1, s2, s3, s4, s5⟩ := C99_family_minrep order g hg ho'
  constructor
  · intro h
    rw [r1, s1] at h
    obtain rfl : r = s := Option.some.inj (Except.ok.inj h)
    exact r3.trans s3.symm
  · intro h
    obtain ⟨z1, h1, h2, h3⟩ := r5 s s2 (h.trans s3)
    obtain ⟨z2, k1, k2, _⟩ := s5 r r2 (h.symm.trans r3)
    rw [s4] at h1
    rw [r4] at k1
    cases h1
    cases k1
    rw [r1, s1, h3 (Nat.le_antisymm k2 h2)]

/-! ### sets that are not iterated in ascending order -/

/-- the loop never finishes, if two candidates with different members are never removed -/
theorem familyLoop_none {f : Boolf} (order : List Nat → List Nat) {n : Nat} (hord : ∀ L < 2 ^ n, (order (freeAtoms L n)).Perm (freeAtoms L n)) {a : Nat → Bool}
    {g : Nat → Boolf} (hm : ∀ c, f.pairMember c 0 = .ok (g c)) {u w : Nat} (hu : u < 2 ^ n) (hw : w < 2 ^ n) (hne : g u ≠ g w)
    (h : ∀ L < 2 ^ n, (∃ i < 2 ^ (freeAtoms L n).length, 0 < i ∧ a (L + rowEntry (order (freeAtoms L n)) i) = true) →
      subXor (freeAtoms L n).length (fun i => a (L + rowEntry (order (freeAtoms L n)) i)) (comp (freeAtoms L n) u) = false ∧
      subXor (freeAtoms L n).length (fun i => a (L + rowEntry (order (freeAtoms L n)) i)) (comp (freeAtoms L n) w) = false)
    (i : Nat) (hi : i ≤ 2 ^ n) (st : Option (List Nat)) (snooze : Bool) (hst : ∀ l, st = some l → u ∈ l ∧ w ∈ l) :
    f.familyMinrepLoop order n (2 ^ n) ⟨(List.range (2 ^ n)).map a⟩ (List.range' (2 ^ n - i) i) st snooze = .ok none := by
  induction i generalizing st snooze with
  | zero => rfl
  | succ i ih =>
    have ih := ih (by omega)
    have hL : i < 2 ^ n := by omega
    have hlist : List.range' (2 ^ n - (i + 1)) (i + 1) = (2 ^ n - (i + 1)) :: List.range' (2 ^ n - i) i := by
      rw [List.range'_succ, show 2 ^ n - (i + 1) + 1 = 2 ^ n - i by omega]
    have hleft : 2 ^ n - (2 ^ n - (i + 1)) - 1 = i := by omega
    obtain ⟨c1, c2, c3⟩ := column_spec order hL (hord i hL) a
    rw [hlist]
    unfold Boolf.familyMinrepLoop
    simp only [hleft]
    rw [rowItem a hL]
    simp only [bind, Except.bind]
    by_cases h1 : (snooze && !a i) = true
    · rw [if_pos h1]
      exact ih st true hst
    · rw [if_neg h1, c1]
      simp only
      rw [c2]
      simp only
      by_cases h2 : bsum (((List.range (2 ^ (freeAtoms i n).length)).map fun k => a (i + rowEntry (order (freeAtoms i n)) k)).drop 1) = 0
      · rw [if_pos h2]
        exact ih st false hst
      · rw [if_neg h2, c3]
        simp only
        have hex : ∃ k < 2 ^ (freeAtoms i n).length, 0 < k ∧ a (i + rowEntry (order (freeAtoms i n)) k) = true := by
          rw [tail_false] at h2
          push Not at h2
          obtain ⟨k, k1, k2, k3⟩ := h2
          exact ⟨k, k1, k2, by simpa using k3⟩
        obtain ⟨hu', hw'⟩ := h i hL hex
        have hS : ∀ c < 2 ^ n, subXor (freeAtoms i n).length (fun k => a (i + rowEntry (order (freeAtoms i n)) k)) (comp (freeAtoms i n) c) = false →
            c ∈ (((List.range (2 ^ n)).map fun c => subXor (freeAtoms i n).length (fun k => a (i + rowEntry (order (freeAtoms i n)) k))
            (comp (freeAtoms i n) c)).zipIdx.filter fun vk => !vk.1).map Prod.snd := by
          intro c hc hb
          rw [mem_stepCandidates, List.getElem?_map, List.getElem?_range hc, Option.map_some, hb]
        have huS := hS u hu hu'
        have hwS := hS w hw hw'
        generalize (((List.range (2 ^ n)).map fun c => subXor (freeAtoms i n).length (fun k => a (i + rowEntry (order (freeAtoms i n)) k))
            (comp (freeAtoms i n) c)).zipIdx.filter fun vk => !vk.1).map Prod.snd = S at huS hwS ⊢
        have hmem : ∀ c ∈ S, (∀ l, st = some l → c ∈ l) → c ∈ narrow st S := by
          intro c hc hl
          cases st with
          | none => exact hc
          | some all => exact List.mem_filter.2 ⟨hl all rfl, List.contains_iff_mem.2 hc⟩
        have huN := hmem u huS fun l hl => (hst l hl).1
        have hwN := hmem w hwS fun l hl => (hst l hl).2
        have hNne : narrow st S ≠ [] := List.ne_nil_of_mem huN
        rw [if_neg (by simp [hNne])]
        rcases repLoop_spec (member := fun c => f.pairMember c 0) (g := g) (fun c _ => hm c) hNne with ⟨r, _, h2⟩ | ⟨h1, _⟩
        · exact absurd ((h2 u huN).trans (h2 w hwN).symm) hne
        · rw [h1]
          exact ih _ false (fun l hl => by cases hl; exact ⟨huN, hwN⟩)

theorem subXor_single {n s : Nat} (hs : s < 2 ^ n) (j : Nat) : subXor n (fun i => decide (i = s)) j = sub s j := by
  unfold subXor
  have : xorSum ((List.range (2 ^ n)).map fun k => decide (k = s) && sub k j) = xorSum ((List.range (2 ^ n)).map fun k => decide (k = s) && sub s j) := by
    apply xorSum_congr
    intro k _
    by_cases hk : k = s
    · rw [hk]
    · simp [hk]
  rw [this]
  cases sub s j with
  | false => simp only [Bool.and_false]; exact xorSum_false _ fun _ _ => rfl
  | true =>
    simp only [Bool.and_true]
    have h3 : ∀ m, s < m → xorSum ((List.range m).map fun k => decide (k = s)) = true := by
      intro m hm
      induction m with
      | zero => omega
      | succ m ih =>
        rw [List.range_succ, List.map_append, xorSum_append]
        by_cases hsm : s = m
        · subst hsm
          rw [xorSum_false]
          · simp [xorSum]
          · intro k hk
            have := List.mem_range.1 hk
            simp; omega
        · rw [ih (by omega)]
          have : ¬ m = s := fun h => hsm h.symm
          simp [xorSum, this]
    exact h3 _ hs

/-- the conjunction of the atoms that are digits of `s` -/
theorem conjunction_exists (n s : Nat) (hs : s < 2 ^ n) :
    ∃ f, Reach f ∧ Canon f ∧ f.adicity ≤ n ∧ (∀ key : Nat, f.getItem key = .ok (sub s key)) ∧ ∀ j < 2 ^ n, coef f n j = decide (j = s) := by
  obtain ⟨f, f1, f2, f3, _, f5⟩ := newTT_fun n (sub s)
  refine ⟨f, reach_newTT f1, f2, f3, fun key => ?_, fun j hj => ?_⟩
  · rw [getItem_eq f2.toSound, f5, ← sub_low hs]
  · unfold coef
    rw [subXor_congr (w := subXor n fun i => decide (i = s)), subXor_subXor n _ hj]
    intro i hi
    rw [f5, ← sub_low hs, subXor_single hs]

/-- the columns of the conjunction of the atoms 0 and 2 to 8 -/
theorem column_509 {order : List Nat → List Nat} (ho : ∀ l, (order l).Perm l) (h18 : order [1, 8] = [8, 1]) {a : Nat → Bool} (ha : ∀ j < 512, a j = decide (j = 509))
    (L : Nat) (hL : L < 2 ^ 9) (h : ∃ i < 2 ^ (freeAtoms L 9).length, 0 < i ∧ a (L + rowEntry (order (freeAtoms L 9)) i) = true) :
    subXor (freeAtoms L 9).length (fun i => a (L + rowEntry (order (freeAtoms L 9)) i)) (comp (freeAtoms L 9) 0) = false ∧
    subXor (freeAtoms L 9).length (fun i => a (L + rowEntry (order (freeAtoms L 9)) i)) (comp (freeAtoms L 9) 256) = false := by
  have hnd : (freeAtoms L 9).Nodup := (freeAtoms_asc L 9).imp (fun h => Nat.ne_of_lt h)
  have hoA := ho (freeAtoms L 9)
  have hnd' : (order (freeAtoms L 9)).Nodup := hoA.nodup_iff.2 hnd
  have hlen : (order (freeAtoms L 9)).length = (freeAtoms L 9).length := hoA.length_eq
  have hlt : ∀ i, L + rowEntry (order (freeAtoms L 9)) i < 512 := fun i =>
    add_rowEntry_lt hnd' hL (fun x hx => mem_freeAtoms.1 (hoA.mem_iff.1 hx)) i
  obtain ⟨i0, i1, i2, i3⟩ := h
  rw [ha _ (hlt i0), decide_eq_true_eq] at i3
  have hv : ∀ i < 2 ^ (freeAtoms L 9).length, a (L + rowEntry (order (freeAtoms L 9)) i) = decide (i = i0) := by
    intro i hi
    rw [ha _ (hlt i)]
    apply decide_eq_decide.2
    constructor
    · intro h
      have he : rowEntry (order (freeAtoms L 9)) i = rowEntry (order (freeAtoms L 9)) i0 := by omega
      have := comp_rowEntry hnd' (j := i) (by rw [hlen]; exact hi)
      rw [he, comp_rowEntry hnd' (by rw [hlen]; exact i1)] at this
      exact this.symm
    · rintro rfl; exact i3
  rw [subXor_congr hv, subXor_congr hv, subXor_single i1, subXor_single i1]
  obtain ⟨b, hb⟩ : ∃ b, i0.testBit b = true := Nat.exists_testBit_of_ne_zero (by omega)
  have hbl : b < (freeAtoms L 9).length := by
    by_contra hc
    rw [testBit_of_lt i1 (by omega)] at hb
    cases hb
  constructor
  · rw [Bool.eq_false_iff, ne_eq, sub_iff]
    intro h
    have := h b hb
    rw [testBit_comp (List.getElem?_eq_getElem hbl), Nat.zero_testBit] at this
    cases this
  · rw [Bool.eq_false_iff, ne_eq, sub_iff]
    intro h
    have key : ∀ k, i0.testBit k = true → (freeAtoms L 9)[k]? = some 8 := by
      intro k hk
      have hkl : k < (freeAtoms L 9).length := by
        by_contra hc
        rw [testBit_of_lt i1 (by omega)] at hk
        cases hk
      have := h k hk
      rw [testBit_comp (List.getElem?_eq_getElem hkl), show (256 : Nat) = 2 ^ 8 by rfl, Nat.testBit_two_pow, decide_eq_true_eq] at this
      rw [List.getElem?_eq_getElem hkl, ← this]
    have hb8 := key b hb
    have huniq : ∀ k, i0.testBit k = true → k = b := fun k hk => (List.getElem?_inj (getElem?_some_lt (key k hk)) hnd).1 ((key k hk).trans hb8.symm)
    have hbl' : b < (order (freeAtoms L 9)).length := by omega
    obtain ⟨y, hy⟩ : ∃ y, (order (freeAtoms L 9))[b]? = some y := ⟨_, List.getElem?_eq_getElem hbl'⟩
    have hr : rowEntry (order (freeAtoms L 9)) i0 = 2 ^ y := by
      apply Nat.eq_of_testBit_eq
      intro p
      rw [Bool.eq_iff_iff, testBit_rowEntry hnd', Nat.testBit_two_pow, decide_eq_true_eq]
      constructor
      · rintro ⟨k, k1, k2⟩
        rw [huniq k k2, hy] at k1
        exact Option.some.inj k1
      · rintro rfl
        exact ⟨b, hy, hb⟩
    rw [hr] at i3
    have hyA := mem_freeAtoms.1 (hoA.mem_iff.1 (List.mem_of_getElem? hy))
    have hLy : L = 509 - 2 ^ y := by omega
    have h8 : (8 : Nat) ∈ freeAtoms L 9 := List.mem_of_getElem? hb8
    obtain ⟨hy9, hyL⟩ := hyA
    subst hLy
    interval_cases y
    · exact absurd h8 (by decide)
    · exact absurd hyL (by decide)
    · exact absurd h8 (by decide)
    · exact absurd h8 (by decide)
    · exact absurd h8 (by decide)
    · exact absurd h8 (by decide)
    · exact absurd h8 (by decide)
    · exact absurd h8 (by decide)
    · have hA : freeAtoms (509 - 2 ^ 8) 9 = [1, 8] := by decide
      rw [hA] at hb8 hy
      rw [h18] at hy
      have hb2 : b < 2 := getElem?_some_lt hb8
      interval_cases b
      · simp at hb8
      · simp at hy

/-- **C99.** If python iterates over the set {1, 8} in the order 8, 1 (as CPython does), then `family_minrep` is `None` for the conjunction of the atoms
0, 2, 3, …, 8. -/
theorem C99_none (order : List Nat → List Nat) (ho : ∀ l, (order l).Perm l) (h18 : order [1, 8] = [8, 1]) (f : Boolf) (hf : Reach f)
    (hv : ∀ key : Nat, f.getItem key = .ok ([0, 2, 3, 4, 5, 6, 7, 8].all key.testBit)) : f.familyMinrep order = .ok none := by
  obtain ⟨f', h1, h2, h3, h4, h5⟩ := conjunction_exists 9 509 (by decide)
  have hff : f = f' := by
    apply hf.canon.ext_key h2
    intro key
    rw [hv, h4]
    congr 1
    rw [Bool.eq_iff_iff, List.all_eq_true, sub_iff]
    have hb : ∀ k, (509 : Nat).testBit k = true ↔ k ∈ [0, 2, 3, 4, 5, 6, 7, 8] := by
      intro k
      by_cases hk : k < 9
      · interval_cases k <;> decide
      · rw [testBit_of_lt (show 509 < 2 ^ 9 by decide) (by omega)]
        simp; omega
    simp only [hb]
  subst hff
  have hdep : 8 ∈ f.atomvals := by
    by_contra hc
    have e1 := hv 509
    have e2 := hv 253
    rw [getItem_eq h2.toSound] at e1 e2
    have : f.eval (509 : Nat).testBit = f.eval (253 : Nat).testBit := by
      apply Boolf.eval_congr
      intro x hx
      have hx8 : x ≠ 8 := fun h => hc (h ▸ hx)
      by_cases hx9 : x < 9
      · interval_cases x <;> first | decide | exact absurd rfl hx8
      · rw [testBit_of_lt (show 509 < 2 ^ 9 by decide) (by omega), testBit_of_lt (show 253 < 2 ^ 9 by decide) (by omega)]
    rw [this, Except.ok.inj e2] at e1
    exact absurd e1 (by decide)
  have ha9 : f.adicity = 9 := le_antisymm h3 (h2.toSound.adic_lt hdep)
  have hc : f.isConstant = false := by rw [h2.const]; exact decide_eq_false (List.ne_nil_of_mem hdep)
  obtain ⟨g, hg⟩ := familyMembers h2 hc
  obtain ⟨t, t1, t2⟩ := twin_row h2.toSound
  have hne : g 0 ≠ g 256 := by
    intro h
    have e0 := (hg 0).2.2.1 (509 : Nat).testBit
    have e1 := (hg 256).2.2.1 (509 : Nat).testBit
    rw [← xor_testBit] at e0 e1
    rw [h, e1] at e0
    have v1 := hv (509 ^^^ 0)
    have v2 := hv (509 ^^^ 256)
    rw [getItem_eq h2.toSound] at v1 v2
    rw [← e0, Except.ok.inj v2] at v1
    exact absurd v1 (by decide)
  have := familyLoop_none (f := f) order (n := 9) (fun L _ => ho _) (a := coef f 9) (fun m => (hg m).1) (u := 0) (w := 256) (by decide) (by decide) hne
    (fun L hL h => column_509 ho h18 h5 L hL h) (2 ^ 9) le_rfl none true (fun l hl => by cases hl)
  unfold Boolf.familyMinrep
  rw [if_neg (by simp [hc]), t1]
  simp only [bind, Except.bind]
  rw [t2]
  simp only
  rw [Nat.one_shiftLeft, ha9]
  rw [Nat.sub_self, ← List.range_eq_range'] at this
  exact this

/-- There is such a function. -/
example : ∃ f, Reach f ∧ ∀ key : Nat, f.getItem key = .ok ([0, 2, 3, 4, 5, 6, 7, 8].all key.testBit) := by
  obtain ⟨f, h1, _, _, h4, _⟩ := conjunction_exists 9 509 (by decide)
  refine ⟨f, h1, fun key => ?_⟩
  rw [h4]
  congr 1
  rw [Bool.eq_iff_iff, sub_iff, List.all_eq_true]
  have hb : ∀ k, (509 : Nat).testBit k = true ↔ k ∈ [0, 2, 3, 4, 5, 6, 7, 8] := by
    intro k
    by_cases hk : k < 9
    · interval_cases k <;> decide
    · rw [testBit_of_lt (show 509 < 2 ^ 9 by decide) (by omega)]
      simp; omega
  simp only [hb]

end Verif.BF
