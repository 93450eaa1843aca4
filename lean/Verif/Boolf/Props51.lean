import Verif.Boolf.Props50

/-!
# C101: the minimal representative of a clan
-/

namespace Verif.BF
open Verif.Py Verif.BV Verif.P Verif.W Verif.SP
open Verif.A hiding Mat

theorem SignedRenamed.replaced {n : Nat} {f g : Boolf} (hf : Reach f) (hg : Reach g) (h : SignedRenamed n f g) :
    ∃ r s, (∀ x ∈ f.atomvals, r x < n) ∧ Replaced f g r s := by
  obtain ⟨r, s, r1, r2, r3⟩ := h
  exact ⟨r, s, r1, Replaced.of_keys hf.canon.toSound hg.canon.toSound r2 r3⟩

theorem Replaced.signed {n : Nat} {f g : Boolf} (hf : Reach f) (hg : Reach g) {r : Nat → Nat} {s : Nat → Bool} (h : Replaced f g r s) (hn : ∀ x ∈ f.atomvals, r x < n) :
    SignedRenamed n f g :=
  ⟨r, s, hn, h.inj, fun key key' hk => h.keys hf.canon.toSound hg.canon.toSound key key' hk⟩

theorem SignedRenamed.symm {n : Nat} {f g : Boolf} (hf : Reach f) (hg : Reach g) (h : SignedRenamed n f g) : SignedRenamed f.adicity g f := by
  obtain ⟨r, s, _, h⟩ := h.replaced hf hg
  obtain ⟨r', h', hr'⟩ := h.symm hf.canon hg.canon
  exact h'.signed hg hf fun x hx => hf.canon.toSound.adic_lt (hr' x hx)

theorem SignedRenamed.trans {n m : Nat} {f g k : Boolf} (hf : Reach f) (hg : Reach g) (hk : Reach k) (h : SignedRenamed n f g) (h' : SignedRenamed m g k) :
    SignedRenamed m f k := by
  obtain ⟨r, s, _, h⟩ := h.replaced hf hg
  obtain ⟨r', s', b', h'⟩ := h'.replaced hg hk
  exact (h.trans hf.canon hg.canon h').signed hf hk fun x hx => b' _ ((h.mem hf.canon hg.canon _).2 ⟨x, hx, rfl⟩)

/-- the result is an error, or the least member -/
theorem clan_result (order : List Nat → List Nat) (f : Boolf) (hf : Reach f)
    (ho : ∀ L < 2 ^ f.adicity, (order (freeAtoms L f.adicity)).Perm (freeAtoms L f.adicity)) :
    (f.clanMinrep order = .error .assertion ∧ ∃ L < 2 ^ f.adicity, order (freeAtoms L f.adicity) ≠ freeAtoms L f.adicity) ∨
    ∃ r z, f.clanMinrep order = .ok (some r) ∧ Reach r ∧ SignedRenamed f.adicity f r ∧ r.zhe = .ok z ∧
      ∀ n g, Reach g → SignedRenamed n f g → ∃ z', g.zhe = .ok z' ∧ z ≤ z' ∧ (z' = z → g = r) := by
  have hcan := hf.canon
  by_cases hc : f.isConstant = true
  · right
    obtain ⟨z, z1, _⟩ := zhe_spec hcan.toSound
    refine ⟨f, z, by unfold Boolf.clanMinrep; rw [if_pos hc], hf, ?_, z1, fun n g hg h => ?_⟩
    · rw [SignedRenamed, constant_atoms hcan hc]
      refine ⟨id, fun _ => false, by simp, by simp, fun key key' _ => ?_⟩
      rw [getItem_eq hcan.toSound, getItem_eq hcan.toSound]
      congr 1
      apply Boolf.eval_congr
      rw [constant_atoms hcan hc]
      simp
    · obtain ⟨r, s, _, hr⟩ := h.replaced hf hg
      obtain rfl := hr.constant hcan hg.canon hc
      exact ⟨z, z1, le_rfl, fun _ => rfl⟩
  · have hc : f.isConstant = false := by simpa using hc
    rcases clanMinrep_spec hcan hc order ho with h | ⟨P, g, hP, hg, c, hcU, c1, c2⟩
    · exact .inl h
    · right
      obtain ⟨g1, g2, g3⟩ := hg c hcU
      have hB := below_of_index hcU.2 (hP c.2)
      have hrep : Replaced f (g c) (P c.2).get fun x => c.1.testBit ((P c.2).get x) := ⟨fun x _ y _ h => hB.inj h, g2⟩
      refine ⟨g c, _, c1, g1.reach, hrep.signed hf g1.reach fun x hx => hB.lt x (hcan.toSound.adic_lt hx), zhe_Z g1.toSound g3, fun n h hh hren => ?_⟩
      obtain ⟨r, s, _, hr⟩ := hren.replaced hf hh
      obtain ⟨k, k1, k2, k3, k4⟩ := compressed hh.canon
      have hfk := hr.trans hcan hh.canon k3
      have hlen : h.atomvals.length ≤ f.adicity := le_trans (hr.length hcan hh.canon) (length_le_adicity hcan)
      obtain ⟨t, t1, t2⟩ := extend_arrangement (n := f.adicity) (A := f.atomvals) (r := fun x => h.atomvals.idxOf (r x)) (fun x hx => hcan.toSound.adic_lt hx)
        (fun x hx => lt_of_lt_of_le (List.idxOf_lt_length_of_mem ((hr.mem hcan hh.canon _).2 ⟨x, hx, rfl⟩)) hlen) hfk.inj
      obtain ⟨d, hd⟩ := List.mem_iff_getElem?.1 ((mem_revColexPerms _ t).2 t1)
      have hdl : d < Nat.factorial f.adicity := by rw [← length_revColexPerms f.adicity]; exact (List.getElem?_eq_some_iff.1 hd).1
      obtain ⟨_, p, _, _, _, _, p5, p', p6, p7⟩ := perm_at hd
      obtain rfl : P d = p' := Except.ok.inj ((hP d).symm.trans p6)
      have hBd := below_of_index hdl (hP d)
      -- the negated atoms
      classical
      let m : Nat := valB ((List.range f.adicity).map fun y => decide (∃ x ∈ f.atomvals, (P d).get x = y ∧ s x = true))
      have hm : m < 2 ^ f.adicity := by
        have := valB_lt ((List.range f.adicity).map fun y => decide (∃ x ∈ f.atomvals, (P d).get x = y ∧ s x = true))
        rwa [List.length_map, List.length_range] at this
      have hmb : ∀ x ∈ f.atomvals, m.testBit ((P d).get x) = s x := by
        intro x hx
        show (valB _).testBit _ = _
        rw [testBit_valB_map, List.getElem?_range (hBd.lt x (hcan.toSound.adic_lt hx))]
        simp only [Option.map_some, Option.getD_some]
        rw [Bool.eq_iff_iff, decide_eq_true_eq]
        constructor
        · rintro ⟨y, _, h1, h2⟩
          rw [← hBd.inj h1]
          exact h2
        · intro h
          exact ⟨x, hx, rfl, h⟩
      have hdU : (m, d).1 < 2 ^ f.adicity ∧ (m, d).2 < Nat.factorial f.adicity := ⟨hm, hdl⟩
      have hkd : k = g (m, d) := by
        apply k1.ext (hg _ hdU).1
        intro a
        rw [hfk.eval, (hg _ hdU).2.1]
        apply Boolf.eval_congr
        intro x hx
        have e1 := t2 x hx
        rw [p5 x (hcan.toSound.adic_lt hx)] at e1
        simp only
        rw [hmb x hx, p7, Option.some.inj e1, Bool.false_xor]
      have hle : Z (g c) f.adicity ≤ Z h h.adicity := by
        refine le_trans (c2 _ hdU) (le_trans (le_of_eq ?_) k4)
        rw [← hkd]
        have e1 := zhe_Z k1.toSound (le_trans k2 hlen)
        rw [zhe_Z k1.toSound k2] at e1
        exact (Except.ok.inj e1).symm
      refine ⟨_, zhe_Z hh.canon.toSound le_rfl, hle, fun he => ?_⟩
      have e1 := zhe_Z hh.canon.toSound (le_max_left h.adicity f.adicity)
      rw [zhe_Z hh.canon.toSound le_rfl] at e1
      have e2 := zhe_Z g1.toSound (le_trans g3 (le_max_right h.adicity f.adicity))
      rw [zhe_Z g1.toSound g3] at e2
      exact Z_inj hh.canon g1 (le_max_left h.adicity f.adicity) (le_trans g3 (le_max_right _ _))
        ((Except.ok.inj e1).symm.trans (he.trans (Except.ok.inj e2)))

/-- **C101.** `clan_minrep` is the function with the least Zhegalkin index among those that arise by replacing the atoms with other atoms, and negating some of
them (if python iterates in ascending order over sets of numbers below the adicity, which it does for an adicity up to 8). -/
theorem C101_clan_minrep (order : List Nat → List Nat) (f : Boolf) (hf : Reach f) (ho : Ascending order f.adicity) :
    ∃ r z, f.clanMinrep order = .ok (some r) ∧ Reach r ∧ SignedRenamed f.adicity f r ∧ r.zhe = .ok z ∧
      ∀ n g, Reach g → SignedRenamed n f g → ∃ z', g.zhe = .ok z' ∧ z ≤ z' ∧ (z' = z → g = r) := by
  have h : ∀ L, order (freeAtoms L f.adicity) = freeAtoms L f.adicity := fun L => ho _ (freeAtoms_asc L _) fun x hx => (mem_freeAtoms.1 hx).1
  rcases clan_result order f hf (fun L _ => by rw [h]) with ⟨_, L, _, hL⟩ | h'
  · exact absurd (h L) hL
  · exact h'

/-- **C101.** In whatever order python iterates over sets: there is an `AssertionError`, or the result is the right one. -/
theorem C101_any_order (order : List Nat → List Nat) (f : Boolf) (hf : Reach f) (ho : ∀ l, (order l).Perm l) :
    f.clanMinrep order = .error .assertion ∨ f.clanMinrep order = f.clanMinrep id := by
  rcases clan_result order f hf (fun L _ => ho _) with ⟨h, _⟩ | ⟨r, z, r1, r2, r3, r4, r5⟩
  · exact .inl h
  · right
    obtain ⟨s, y, s1, s2, s3, s4, s5⟩ := C101_clan_minrep id f hf fun _ _ _ => rfl
    obtain ⟨z1, h1, h2, h3⟩ := r5 _ s s2 s3
    obtain ⟨z2, k1, k2, _⟩ := s5 _ r r2 r3
    rw [s4] at h1
    rw [r4] at k1
    cases h1
    cases k1
    rw [r1, s1, h3 (Nat.le_antisymm k2 h2)]

/-- **C101.** Two functions have the same representative if and only if one arises from the other by replacing and negating atoms. -/
theorem C101_same_clan (order : List Nat → List Nat) (f g : Boolf) (hf : Reach f) (hg : Reach g) (ho : Ascending order f.adicity) (ho' : Ascending order g.adicity) :
    f.clanMinrep order = g.clanMinrep order ↔ ∃ n, SignedRenamed n f g := by
  obtain ⟨r, z, r1, r2, r3, r4, r5⟩ := C101_clan_minrep order f hf ho
  obtain ⟨s, y, s1, s2, s3, s4, s5⟩ := C101_clan_minrep order g hg ho'
  constructor
  · intro h
    rw [r1, s1] at h
    obtain rfl : r = s := Option.some.inj (Except.ok.inj h)
    exact ⟨_, r3.trans hf r2 hg (s3.symm hg r2)⟩
  · rintro ⟨n, h⟩
    obtain ⟨z1, h1, h2, h3⟩ := r5 _ s s2 (h.trans hf hg s2 s3)
    obtain ⟨z2, k1, k2, _⟩ := s5 _ r r2 ((h.symm hf hg).trans hg hf r2 r3)
    rw [s4] at h1
    rw [r4] at k1
    cases h1
    cases k1
    rw [r1, s1, h3 (Nat.le_antisymm k2 h2)]

/-- **C101.** The atoms of the representative are 0, …, valency − 1. -/
theorem C101_atoms (order : List Nat → List Nat) (f r : Boolf) (hf : Reach f) (ho : Ascending order f.adicity) (h : f.clanMinrep order = .ok (some r)) :
    r.atomvals = List.range f.valency := by
  obtain ⟨r', z, r1, r2, r3, r4, r5⟩ := C101_clan_minrep order f hf ho
  rw [h] at r1
  obtain rfl : r = r' := Option.some.inj (Except.ok.inj r1)
  obtain ⟨k, k1, k2, k3, k4⟩ := compressed r2.canon
  have hk := k3.signed r2 k1.reach (n := r.atomvals.length) fun x hx => List.idxOf_lt_length_of_mem hx
  obtain ⟨z', h1, h2, h3⟩ := r5 _ k k1.reach (r3.trans hf r2 k1.reach hk)
  rw [zhe_Z k1.toSound k2] at h1
  rw [zhe_Z r2.canon.toSound le_rfl] at r4
  cases h1
  cases r4
  have hkr := h3 (le_antisymm k4 h2)
  subst hkr
  obtain ⟨q, _, _, hq⟩ := r3.replaced hf r2
  obtain ⟨q', hq', _⟩ := hq.symm hf.canon r2.canon
  have hl : k.atomvals.length = f.valency := by
    rw [hf.obj.good.val]
    exact le_antisymm (hq.length hf.canon r2.canon) (hq'.length r2.canon hf.canon)
  rw [← hl]
  apply eq_of_mem_iff_of_lt k1.asc List.pairwise_lt_range
  have hsub : ∀ x ∈ k.atomvals, x ∈ List.range k.atomvals.length := fun x hx => List.mem_range.2 (lt_of_lt_of_le (k1.toSound.adic_lt hx) k2)
  intro x
  exact ((List.subperm_of_subset k1.toSound.nodup hsub).perm_of_length_le (by simp)).mem_iff

/-- The implication "1011" has the representative "1110" (the negated conjunction). -/
example : ∃ f r, newTT (.str "1011".toList) = .ok f ∧ newTT (.str "1110".toList) = .ok r ∧ Reach f ∧ Ascending id f.adicity ∧ f.clanMinrep id = .ok (some r) ∧
    f.zhe = .ok 11 ∧ r.zhe = .ok 9 := by
  obtain ⟨_, e1, e2⟩ := newTT_explicit "1011".toList [true, false, true, true] [0, 1] 2 (by decide) (by decide) (by decide) (by intro n; simp; omega) (by decide) (by decide)
  obtain ⟨_, e3, e4⟩ := newTT_explicit "1110".toList [true, true, true, false] [0, 1] 2 (by decide) (by decide) (by decide) (by intro n; simp; omega) (by decide) (by decide)
  exact ⟨_, _, e1 (by decide), e3 (by decide), e2.reach, fun _ _ _ => rfl, by decide +kernel, by decide +kernel, by decide +kernel⟩

/-! ### the assertion fails -/

theorem clanLoop_error {f : Boolf} (order : List Nat → List Nat) {n : Nat} (hord : ∀ L < 2 ^ n, (order (freeAtoms L n)).Perm (freeAtoms L n)) {a : Nat → Bool}
    {layers : Dict Nat (List Nat × List Nat)} {ratios : Dict Nat Rat} (hl : Layers n a layers ratios) {P : Nat → Perm} (hP : ∀ k, intToPerm k = .ok (P k))
    {g : Nat × Nat → Boolf} (hm : ∀ c, f.pairMember c.1 c.2 = .ok (g c)) {stop : Nat} (hstop : order (freeAtoms stop n) ≠ freeAtoms stop n)
    (hz : ∀ L, stop < L → L < 2 ^ n → ∃ b, ∀ c : Nat × Nat, c.1 < 2 ^ n ∧ c.2 < Nat.factorial n → nsum n c.1 (fun H => a (pre n (P c.2).get H)) L = b)
    {u w : Nat × Nat} (hu : u.1 < 2 ^ n ∧ u.2 < Nat.factorial n) (hw : w.1 < 2 ^ n ∧ w.2 < Nat.factorial n) (hne : g u ≠ g w)
    (i : Nat) (hsi : stop < i) (hi : i ≤ 2 ^ n) (st : Option (List (Nat × Nat))) (rows : Dict Nat (List Nat)) (hr : RowsInv n a P rows)
    (hst : ∀ all, st = some all → ∀ c : Nat × Nat, c.1 < 2 ^ n ∧ c.2 < Nat.factorial n → c ∈ all) :
    f.clanMinrepLoop order n (2 ^ n) (Nat.factorial n) layers ratios (List.range' (2 ^ n - i) i) st rows = .error .assertion := by
  induction i generalizing st rows with
  | zero => omega
  | succ i ih =>
    have hL : i < 2 ^ n := by omega
    have hlist : List.range' (2 ^ n - (i + 1)) (i + 1) = (2 ^ n - (i + 1)) :: List.range' (2 ^ n - i) i := by
      rw [List.range'_succ, show 2 ^ n - (i + 1) + 1 = 2 ^ n - i by omega]
    have hleft : 2 ^ n - (2 ^ n - (i + 1)) - 1 = i := by omega
    obtain ⟨b1, b2⟩ := blueKeys_sorted (hord i hL)
    rw [hlist]
    unfold Boolf.clanMinrepLoop
    simp only [hleft]
    rw [intToSierpinskiRow_spec order hL (hord i hL).length_eq]
    simp only [bind, Except.bind]
    rw [b1]
    by_cases hs : order (freeAtoms i n) = freeAtoms i n
    · have hsi : stop < i := by
        rcases Nat.lt_or_ge stop i with h | h
        · exact h
        · have : stop = i := by omega
          subst this
          exact absurd hs hstop
      have ih := ih hsi (by omega)
      obtain ⟨b, hb⟩ := hz i hsi hL
      rw [if_pos (b2.2 hs), hs]
      have hnd : (freeAtoms i n).Nodup := (freeAtoms_asc i n).imp (fun h => Nat.ne_of_lt h)
      obtain ⟨rows', r1, r2, r3⟩ := blueRows_all hl hP ((List.range (2 ^ (freeAtoms i n).length)).map fun j => i + rowEntry (freeAtoms i n) j) (by
        intro key hkey
        obtain ⟨j, _, rfl⟩ := List.mem_map.1 hkey
        exact add_rowEntry_lt hnd hL (fun x hx => mem_freeAtoms.1 hx) j) rows hr
      rw [r1]
      simp only
      obtain ⟨cols, bigs, S, s1, s2, s3⟩ := applicants_spec hL r2 (fun j hj => r3 _ (List.mem_map.2 ⟨j, List.mem_range.2 hj, rfl⟩))
      rw [s1]
      simp only
      rw [s2]
      simp only
      cases b with
      | true =>
        have hSe : S = [] := by
          rw [List.eq_nil_iff_forall_not_mem]
          intro c hc
          obtain ⟨h1, h2⟩ := (s3 c).1 hc
          rw [hb c h1] at h2
          cases h2
        rw [if_pos (by simp [hSe])]
        exact ih st rows' r2 hst
      | false =>
        have hS : ∀ c : Nat × Nat, c.1 < 2 ^ n ∧ c.2 < Nat.factorial n → c ∈ S := fun c hc => (s3 c).2 ⟨hc, hb c hc⟩
        rw [if_neg (by simpa using List.ne_nil_of_mem (hS u hu))]
        have hN : ∀ c : Nat × Nat, c.1 < 2 ^ n ∧ c.2 < Nat.factorial n → c ∈ narrow st S := by
          intro c hc
          cases st with
          | none => exact hS c hc
          | some all =>
            simp only [narrow, List.mem_filter, List.contains_iff_mem]
            exact ⟨hst all rfl c hc, hS c hc⟩
        rw [if_neg (by simp [List.ne_nil_of_mem (hN u hu)])]
        rcases repLoop_spec (member := fun c => f.pairMember c.1 c.2) (g := g) (fun c _ => hm c) (List.ne_nil_of_mem (hN u hu)) with ⟨r, _, h2⟩ | ⟨h1, _⟩
        · exact absurd ((h2 u (hN u hu)).trans (h2 w (hN w hw)).symm) hne
        · rw [h1]
          exact ih _ rows' r2 (fun all h => by cases h; exact hN)
    · rw [if_neg (fun h => hs (b2.1 h))]

theorem ones_mono {n L H : Nat} (h : sub L H = true) : ones n L ≤ ones n H :=
  List.countP_mono_left fun k _ hk => sub_iff.1 h k hk

/-- the sum of the atoms has the coefficient 1 for the single atoms -/
theorem subXor_ones (n j : Nat) : subXor n (fun i => decide (ones n i = 1)) j = xorSum ((List.range n).map j.testBit) := by
  induction n generalizing j with
  | zero => simp [subXor_zero, ones, xorSum]
  | succ n ih =>
    have h1 : ∀ i < 2 ^ n, (fun i => decide (ones (n + 1) i = 1)) i = (fun i => decide (ones n i = 1)) i := by
      intro i hi
      apply decide_eq_decide.2
      simp [ones, List.range_succ, testBit_of_lt hi (le_refl n)]
    have h2 : ∀ i < 2 ^ n, (fun i => decide (ones (n + 1) (2 ^ n + i) = 1)) i = (fun i => decide (i = 0)) i := by
      intro i hi
      apply decide_eq_decide.2
      have e1 : (2 ^ n + i).testBit n = true := by
        rw [Nat.testBit_two_pow_add_eq, testBit_of_lt hi (le_refl n)]; rfl
      have e2 : ones (n + 1) (2 ^ n + i) = ones n i + 1 := by
        simp only [ones, List.range_succ, List.countP_append, List.countP_cons, List.countP_nil, e1]
        simp only [if_true, Nat.zero_add, Nat.add_right_cancel_iff]
        apply List.countP_congr
        intro k hk
        rw [Nat.testBit_two_pow_add_gt (List.mem_range.1 hk)]
      rw [e2]
      constructor
      · intro h
        have h0 : ones n i = 0 := by omega
        apply Nat.eq_of_testBit_eq
        intro k
        rw [Nat.zero_testBit]
        by_cases hk : k < n
        · have := List.countP_eq_zero.1 h0 k (List.mem_range.2 hk)
          simpa using this
        · exact testBit_of_lt hi (by omega)
      · rintro rfl
        have : ones n 0 = 0 := List.countP_eq_zero.2 fun k _ => by simp
        omega
    rw [subXor_succ, subXor_congr h1, subXor_congr h2, subXor_single (Nat.two_pow_pos n), ih, List.range_succ, List.map_append, xorSum_append]
    congr 1
    · congr 1
      apply List.map_congr_left
      intro k hk
      rw [Nat.testBit_mod_two_pow, decide_eq_true (List.mem_range.1 hk), Bool.true_and]
    · have : sub 0 (j % 2 ^ n) = true := sub_iff.2 fun k hk => by simp at hk
      simp [xorSum, this]

/-- the sum of the first atoms -/
theorem sum_exists (n : Nat) : ∃ f, Reach f ∧ Canon f ∧ f.adicity ≤ n ∧ (∀ key : Nat, f.getItem key = .ok (xorSum ((List.range n).map key.testBit))) ∧
    ∀ j < 2 ^ n, coef f n j = decide (ones n j = 1) := by
  obtain ⟨f, f1, f2, f3, _, f5⟩ := newTT_fun n (subXor n fun i => decide (ones n i = 1))
  refine ⟨f, reach_newTT f1, f2, f3, fun key => ?_, fun j hj => ?_⟩
  · rw [getItem_eq f2.toSound, f5, subXor_ones]
    congr 2
    apply List.map_congr_left
    intro k hk
    rw [Nat.testBit_mod_two_pow, decide_eq_true (List.mem_range.1 hk), Bool.true_and]
  · unfold coef
    rw [subXor_congr (w := subXor n fun i => decide (ones n i = 1)), subXor_subXor n _ hj]
    intro i hi
    rw [f5, Nat.mod_eq_of_lt hi]

/-- the columns of the sum of the atoms 0 to 8, before the failing one -/
theorem column_sum {a : Nat → Bool} (ha : ∀ j < 2 ^ 9, a j = decide (ones 9 j = 1)) {L : Nat} (h : 253 < L) (hL : L < 2 ^ 9) {p : Nat → Nat} (hp : Below 9 p) (c : Nat) :
    nsum 9 c (fun H => a (pre 9 p H)) L = decide (L = 256) := by
  have hnd : (freeAtoms L 9).Nodup := (freeAtoms_asc L 9).imp (fun h => Nat.ne_of_lt h)
  have hlt : ∀ i, L + rowEntry (freeAtoms L 9) i < 2 ^ 9 := add_rowEntry_lt hnd hL fun x hx => mem_freeAtoms.1 hx
  rw [nsum_twin]
  simp only [ha _ (pre_lt _ _ _), ones_pre hp]
  by_cases h256 : L = 256
  · rw [subXor_congr (w := fun i => decide (i = 0)), subXor_single (Nat.two_pow_pos _), decide_eq_true h256]
    · exact sub_iff.2 fun k hk => by simp at hk
    · intro i hi
      apply decide_eq_decide.2
      constructor
      · intro h1
        by_contra hi0
        have hre : rowEntry (freeAtoms L 9) i ≠ 0 := by
          intro h
          have := comp_rowEntry hnd hi
          rw [h, ← rowEntry_zero hnd, comp_rowEntry hnd (Nat.two_pow_pos _)] at this
          exact hi0 this.symm
        have hlt := hlt i
        subst h256
        have hall : ∀ p < 256, p ≠ 0 → ones 9 (256 + p) ≠ 1 := by decide +kernel
        exact hall _ (by omega) hre h1
      · rintro rfl
        rw [rowEntry_zero hnd, h256]
        decide
  · rw [subXor_congr (w := fun _ => false), decide_eq_false h256]
    · unfold subXor
      exact xorSum_false _ fun _ _ => by simp
    · intro i _
      apply decide_eq_false
      intro h1
      have hall : ∀ l < 512, 253 < l → l ≠ 256 → 2 ≤ ones 9 l := by decide +kernel
      have h2 := hall L hL h h256
      have h3 : ones 9 L ≤ ones 9 (L + rowEntry (freeAtoms L 9) i) := by
        apply ones_mono
        have hd : disj (rowEntry (freeAtoms L 9) i) L = true := disj_rowEntry hnd (fun x hx => (mem_freeAtoms.1 hx).2) i
        rw [sub_iff, ← xor_of_disj hd]
        intro k hk
        rw [Nat.testBit_xor, hk]
        cases hb : (rowEntry (freeAtoms L 9) i).testBit k with
        | false => rfl
        | true => rw [disj_iff.1 hd k hb] at hk; cases hk
      omega

/-- **C101.** If python iterates over the set {1, 8} in the order 8, 1 (as CPython does), then `clan_minrep` of the sum (exclusive or) of the atoms 0 to 8 raises an
`AssertionError`. -/
theorem C101_assertion (order : List Nat → List Nat) (ho : ∀ l, (order l).Perm l) (h18 : order [1, 8] = [8, 1]) (f : Boolf) (hf : Reach f)
    (hv : ∀ key : Nat, f.getItem key = .ok (xorSum ((List.range 9).map key.testBit))) : f.clanMinrep order = .error .assertion := by
  obtain ⟨f', h1, h2, h3, h4, h5⟩ := sum_exists 9
  have hff : f = f' := by
    apply hf.canon.ext_key h2
    intro key
    rw [hv, h4]
  subst hff
  have hdep : 8 ∈ f.atomvals := by
    by_contra hc
    have e1 := hv 256
    have e2 := hv 0
    rw [getItem_eq h2.toSound] at e1 e2
    have : f.eval (256 : Nat).testBit = f.eval (0 : Nat).testBit := by
      apply Boolf.eval_congr
      intro x hx
      rw [show (256 : Nat) = 2 ^ 8 by rfl, Nat.testBit_two_pow, Nat.zero_testBit]
      exact decide_eq_false fun h => hc (h ▸ hx)
    rw [this, Except.ok.inj e2] at e1
    exact absurd e1 (by decide)
  have ha9 : f.adicity = 9 := le_antisymm h3 (h2.toSound.adic_lt hdep)
  have hc : f.isConstant = false := by rw [h2.const]; exact decide_eq_false (List.ne_nil_of_mem hdep)
  obtain ⟨P, g, hP, hg⟩ := clanMembers h2 hc
  obtain ⟨t, t1, t2⟩ := twin_row h2.toSound
  obtain ⟨layers, ratios, l1, l2, hl⟩ := layers_exist 9 (coef f 9)
  obtain ⟨p, p1, p2⟩ := intToPerm_zero
  obtain rfl : P 0 = p := Except.ok.inj ((hP 0).symm.trans p1)
  have hne : g (0, 0) ≠ g (256, 0) := by
    intro h
    have e0 := (hg (0, 0)).2.2.1 (0 : Nat).testBit
    have e1 := (hg (256, 0)).2.2.1 (0 : Nat).testBit
    rw [h, e1] at e0
    simp only [p2, Nat.zero_testBit, Bool.false_xor] at e0
    have v1 := hv 256
    have v2 := hv 0
    rw [getItem_eq h2.toSound] at v1 v2
    have e3 : f.eval (0 : Nat).testBit = f.eval fun _ => false := by
      apply Boolf.eval_congr
      intro x _
      exact Nat.zero_testBit x
    have e4 : f.eval (256 : Nat).testBit = f.eval (0 : Nat).testBit := by rw [e3]; exact e0
    rw [e4, Except.ok.inj v2] at v1
    exact absurd v1 (by decide)
  have hA : freeAtoms 253 9 = [1, 8] := by decide
  have := clanLoop_error (f := f) order (n := 9) (fun L _ => ho _) hl hP (fun c => (hg c).1) (stop := 253) (by rw [hA, h18]; decide)
    (fun L h1 h2 => ⟨_, fun c hc => column_sum h5 h1 h2 (below_of_index hc.2 (hP c.2)) c.1⟩) (u := (0, 0)) (w := (256, 0))
    ⟨by decide, Nat.factorial_pos 9⟩ ⟨by decide, Nat.factorial_pos 9⟩ hne 511 (by decide) (by decide) none [] (fun key l h => by simp [Dict.get?] at h) (fun l hl => by cases hl)
  unfold Boolf.clanMinrep
  rw [if_neg (by simp [hc]), t1]
  simp only [bind, Except.bind]
  rw [t2]
  simp only [ha9, l1, l2, Nat.one_shiftLeft]
  rw [show 2 ^ 9 - 1 = 511 by norm_num]
  rw [show 2 ^ 9 - 511 = 1 by norm_num] at this
  exact this

/-- There is such a function. -/
example : ∃ f, Reach f ∧ ∀ key : Nat, f.getItem key = .ok (xorSum ((List.range 9).map key.testBit)) := by
  obtain ⟨f, h1, _, _, h4, _⟩ := sum_exists 9
  exact ⟨f, h1, h4⟩

end Verif.BF
