import Verif.Boolf.Props26

/-!
# C88: bundles
-/

namespace Verif.BF
open Verif.Py Verif.BV Verif.P Verif.W Verif.SP Verif.SPC
open Verif.A hiding Mat

/-! ### partitions from pairs of positions -/

theorem closure_nat (pairs : List (Nat × Nat)) (x y : Int) :
    Closure Eq (pairs.map fun p => ((p.1 : Int), (p.2 : Int))) x y ↔
      x = y ∨ ∃ a b : Nat, x = a ∧ y = b ∧ Relation.EqvGen (fun i j => (i, j) ∈ pairs) a b := by
  constructor
  · intro h
    induction h with
    | rel u v h =>
      rcases h with h | h
      · exact Or.inl h
      · rw [List.mem_map] at h
        obtain ⟨⟨a, b⟩, hp, he⟩ := h
        cases he
        exact Or.inr ⟨a, b, rfl, rfl, Relation.EqvGen.rel _ _ hp⟩
    | refl u => exact Or.inl rfl
    | symm u v _ ih =>
      rcases ih with rfl | ⟨a, b, rfl, rfl, hr⟩
      · exact Or.inl rfl
      · exact Or.inr ⟨b, a, rfl, rfl, hr.symm⟩
    | trans u v w _ _ ih1 ih2 =>
      rcases ih1 with rfl | ⟨a, b, rfl, rfl, hr⟩
      · exact ih2
      · rcases ih2 with rfl | ⟨c, d, h1, rfl, hr'⟩
        · exact Or.inr ⟨a, b, rfl, rfl, hr⟩
        · obtain rfl : b = c := by omega
          exact Or.inr ⟨a, d, rfl, rfl, hr.trans _ _ _ hr'⟩
  · rintro (rfl | ⟨a, b, rfl, rfl, hr⟩)
    · exact Relation.EqvGen.refl _
    · induction hr with
      | rel u v h => exact Relation.EqvGen.rel _ _ (Or.inr (List.mem_map.2 ⟨(u, v), h, rfl⟩))
      | refl u => exact Relation.EqvGen.refl _
      | symm u v _ ih => exact Relation.EqvGen.symm _ _ ih
      | trans u v w _ _ ih1 ih2 => exact Relation.EqvGen.trans _ _ _ ih1 ih2

theorem eqvGen_lt {R : Nat → Nat → Prop} {n : Nat} (hR : ∀ a b, R a b → a < n ∧ b < n) {a b : Nat} (h : Relation.EqvGen R a b) : a = b ∨ (a < n ∧ b < n) := by
  induction h with
  | rel u v h => exact Or.inr (hR u v h)
  | refl u => exact Or.inl rfl
  | symm u v _ ih => omega
  | trans u v w _ _ ih1 ih2 => omega

theorem mergeAll_nat (pairs : List (Nat × Nat)) : ∃ p : SetPart Unit, mergeAll (newPart []) (pairs.map fun p => ((p.1 : Int), (p.2 : Int))) = .ok p ∧ WF p ∧ p.domain = .N ∧
    ∀ x y, Eqv p.blocks x y ↔ x = y ∨ ∃ a b : Nat, x = a ∧ y = b ∧ Relation.EqvGen (fun i j => (i, j) ∈ pairs) a b := by
  obtain ⟨p, p1, p2, p3, p4⟩ := mergeAll_ok (L := Unit) .N (pairs.map fun p => ((p.1 : Int), (p.2 : Int))) (by
    intro ab hab
    rw [List.mem_map] at hab
    obtain ⟨⟨a, b⟩, _, rfl⟩ := hab
    exact Or.inr ⟨Int.natCast_nonneg a, Int.natCast_nonneg b⟩)
  exact ⟨p, p1, p2, p3, fun x y => (p4 x y).trans (closure_nat pairs x y)⟩

/-- the partition of the first numbers that joins the given pairs -/
theorem mergeAll_blocks (n : Nat) (pairs : List (Nat × Nat)) (hn : ∀ p ∈ pairs, p.1 < n ∧ p.2 < n) :
    ∃ (p : SetPart Unit) (r : List (List Int)), mergeAll (newPart []) (pairs.map fun p => ((p.1 : Int), (p.2 : Int))) = .ok p ∧
      p.blocksWithSingletons { length := some (n : Int) } = .ok r ∧ r.Pairwise (· < ·) ∧
      ∀ B, B ∈ r ↔ ∃ e < n, B.Pairwise (· < ·) ∧ ∀ x, x ∈ B ↔ ∃ k < n, x = ((k : Nat) : Int) ∧ Relation.EqvGen (fun i j => (i, j) ∈ pairs) e k := by
  obtain ⟨p, p1, p2, p3, p4⟩ := mergeAll_nat pairs
  have hR : ∀ a b, (a, b) ∈ pairs → a < n ∧ b < n := fun a b h => hn (a, b) h
  have hmem : ∀ B ∈ p.blocks, ∀ x ∈ B, 0 ≤ x ∧ x < n := by
    intro B hB x hx
    obtain ⟨y, hy, hyx⟩ := p2.canon.partner hB x
    rcases (p4 x y).1 (Or.inr ⟨B, hB, hx, hy⟩) with rfl | ⟨a, b, rfl, rfl, hab⟩
    · exact absurd rfl hyx
    · rcases eqvGen_lt hR hab with rfl | h
      · exact absurd rfl hyx
      · omega
  have hdom : ElementsInDomain p := by
    intro B hB x hx
    rw [p3]
    exact (hmem B hB x hx).1
  obtain ⟨r, r1, r2, r3⟩ := (C58_length p p2 hdom (n : Int)).1 p3 (by
    intro l hl
    obtain ⟨m, m1, m2, m3⟩ := C58_length_attribute p p2 p3
    rw [m1] at hl; cases hl
    by_cases h0 : p.nonSingletons = []
    · rw [m2 h0]; omega
    · obtain ⟨h4, _⟩ := m3 h0
      obtain ⟨B, hB, hx⟩ := p2.mem_ns.1 h4
      have := hmem B hB _ hx
      omega)
  have hblock : ∀ e : Nat, e < n → ∀ x, x ∈ p.elementToBlock e ↔ ∃ k < n, x = ((k : Nat) : Int) ∧ Relation.EqvGen (fun i j => (i, j) ∈ pairs) e k := by
    intro e he x
    have h1 : x ∈ p.elementToBlock e ↔ Eqv p.blocks e x := by
      rw [p2.mem_elementToBlock]; exact or_congr_left eq_comm
    rw [h1, p4]
    constructor
    · rintro (rfl | ⟨a, b, h2, rfl, hr⟩)
      · exact ⟨e, he, rfl, Relation.EqvGen.refl _⟩
      · obtain rfl : e = a := by omega
        rcases eqvGen_lt hR hr with rfl | h
        · exact ⟨e, he, rfl, hr⟩
        · exact ⟨b, h.2, rfl, hr⟩
    · rintro ⟨k, _, rfl, hr⟩
      exact Or.inr ⟨e, k, rfl, rfl, hr⟩
  refine ⟨p, r, p1, r1, r2, fun B => ?_⟩
  rw [r3]
  constructor
  · rintro ⟨e, he, rfl⟩
    unfold rangeZ at he
    rw [List.mem_map] at he
    obtain ⟨i, hi, rfl⟩ := he
    rw [List.mem_range] at hi
    refine ⟨i, by omega, p2.elementToBlock_lt _, ?_⟩
    rw [Int.zero_add]
    exact hblock i (by omega)
  · rintro ⟨e, he, h1, h2⟩
    refine ⟨(e : Int), ?_, int_asc_ext h1 (p2.elementToBlock_lt _) fun x => ?_⟩
    · unfold rangeZ
      rw [List.mem_map]
      exact ⟨e, by rw [List.mem_range]; omega, by omega⟩
    · rw [h2, hblock e he]

/-! ### crossing atoms -/

/-- the positions of two different atoms for which all four pairs of values occur among the true places -/
def Crossing (f : Boolf) (i j : Nat) : Prop := ∃ x y, f.atomvals[i]? = some x ∧ f.atomvals[j]? = some y ∧ x ≠ y ∧
  ∀ p q : Bool, ∃ key : Nat, f.getItem key = .ok true ∧ key.testBit x = p ∧ key.testBit y = q

theorem Crossing.symm {f : Boolf} {i j : Nat} (h : Crossing f i j) : Crossing f j i := by
  obtain ⟨x, y, hx, hy, hxy, h⟩ := h
  refine ⟨y, x, hy, hx, Ne.symm hxy, fun p q => ?_⟩
  obtain ⟨k, k1, k2, k3⟩ := h q p
  exact ⟨k, k1, k3, k2⟩

theorem crossing_lt {f : Boolf} (h : Canon f) {i j : Nat} (hc : Crossing f i j) : i < f.valency ∧ j < f.valency ∧ i ≠ j := by
  obtain ⟨x, y, hx, hy, hxy, _⟩ := hc
  rw [h.val]
  refine ⟨getElem?_some_lt hx, getElem?_some_lt hy, ?_⟩
  rintro rfl
  rw [hx] at hy
  exact hxy (Option.some.inj hy)

theorem four_iff {F : List Nat} {a b : Nat} : countSplitRegions (splitOf F a) (splitOf F b) = 4 ↔ ∀ p q : Bool, has F a b p q = true := by
  refine ⟨fun h p q => count_four h p q, fun h => ?_⟩
  rw [count_has, h, h, h, h]
  rfl

theorem crossing_iff {f : Boolf} (h : Canon f) {i j : Nat} (hij : i < j) (hj : j < f.valency) :
    Crossing f i j ↔ countSplitRegions (splitOf f.fullspots i) (splitOf f.fullspots j) = 4 := by
  obtain ⟨x, hx⟩ := atom_some h.toSound (show i < f.valency by omega)
  obtain ⟨y, hy⟩ := atom_some h.toSound hj
  rw [four_iff]
  simp only [has_key h.toSound hx hy]
  constructor
  · rintro ⟨x', y', hx', hy', _, hc⟩
    rw [hx] at hx'; rw [hy] at hy'
    cases hx'; cases hy'
    exact hc
  · exact fun hc => ⟨x, y, hx, hy, Nat.ne_of_lt (getElem_lt h.asc hx hy hij), hc⟩

/-- the pairs of crossing atoms -/
def crossPairs (f : Boolf) : List (Nat × Nat) :=
  (pairsBelow f.valency).filter fun p => decide (countSplitRegions (splitOf f.fullspots p.1) (splitOf f.fullspots p.2) = 4)

theorem mem_crossPairs {f : Boolf} (h : Canon f) {i j : Nat} : (i, j) ∈ crossPairs f ↔ i < j ∧ Crossing f i j := by
  unfold crossPairs
  rw [List.mem_filter, mem_pairsBelow, decide_eq_true_eq]
  constructor
  · rintro ⟨⟨h1, h2⟩, h3⟩
    exact ⟨h1, (crossing_iff h h1 h2).2 h3⟩
  · rintro ⟨h1, h2⟩
    have := (crossing_lt h h2).2.1
    exact ⟨⟨h1, this⟩, (crossing_iff h h1 this).1 h2⟩

theorem eqvGen_cross {f : Boolf} (h : Canon f) {i j : Nat} : Relation.EqvGen (fun i j => (i, j) ∈ crossPairs f) i j ↔ Relation.EqvGen (Crossing f) i j := by
  constructor
  · intro hr
    induction hr with
    | rel u v hp => exact Relation.EqvGen.rel _ _ ((mem_crossPairs h).1 hp).2
    | refl u => exact Relation.EqvGen.refl _
    | symm u v _ ih => exact Relation.EqvGen.symm _ _ ih
    | trans u v w _ _ ih1 ih2 => exact Relation.EqvGen.trans _ _ _ ih1 ih2
  · intro hr
    induction hr with
    | rel u v hp =>
      rcases Nat.lt_or_gt_of_ne (crossing_lt h hp).2.2 with h1 | h1
      · exact Relation.EqvGen.rel _ _ ((mem_crossPairs h).2 ⟨h1, hp⟩)
      · exact Relation.EqvGen.symm _ _ (Relation.EqvGen.rel _ _ ((mem_crossPairs h).2 ⟨h1, hp.symm⟩))
    | refl u => exact Relation.EqvGen.refl _
    | symm u v _ ih => exact Relation.EqvGen.symm _ _ ih
    | trans u v w _ _ ih1 ih2 => exact Relation.EqvGen.trans _ _ _ ih1 ih2

/-- the test at the start of `bundles` and `bundle_overlap_counts` -/
theorem bloatless_test {f : Boolf} (h : Canon f) : ∃ g, f.bloatlessBoolf = .ok g ∧ (f.eq g = true ↔ f.isBloatless = .ok true) := by
  obtain ⟨g, g1, _, _, g4⟩ := C84_is_bloatless f h.reach
  obtain ⟨g', l, q1, q2, _⟩ := C84_bloatless_boolf f h.reach
  rw [g1] at q1; cases q1
  refine ⟨g, g1, ?_⟩
  rw [g4]
  have hg := q2.canon
  constructor
  · intro he
    obtain ⟨e1, e2⟩ := (Boolf.eq_iff f g).1 he
    refine hg.ext h fun a => ?_
    unfold Boolf.eval
    rw [e1, e2]
  · rintro rfl
    exact (Boolf.eq_iff _ _).2 ⟨rfl, rfl⟩

theorem bundles_spec {f : Boolf} (h : Canon f) (hb : f.isBloatless = .ok true) : ∃ l : List (List Int), f.bundles = .ok l ∧ l.Pairwise (· < ·) ∧
    ∀ B, B ∈ l ↔ ∃ e < f.valency, B.Pairwise (· < ·) ∧ ∀ x, x ∈ B ↔ ∃ k < f.valency, x = ((k : Nat) : Int) ∧ Relation.EqvGen (Crossing f) e k := by
  obtain ⟨g, g1, g2⟩ := bloatless_test h
  obtain ⟨p, r, p1, p2, p3, p4⟩ := mergeAll_blocks f.valency (crossPairs f) (by
    rintro ⟨i, j⟩ hp
    have := crossing_lt h ((mem_crossPairs h).1 hp).2
    exact ⟨this.1, this.2.1⟩)
  simp only [eqvGen_cross h] at p4
  refine ⟨r, ?_, p3, p4⟩
  have hd : ((((pairsBelow f.valency).map fun p => (p, countSplitRegions (splitOf f.fullspots p.1) (splitOf f.fullspots p.2))).filter fun p => decide (p.2 = 4)).map
      fun p => ((p.1.1 : Int), (p.1.2 : Int))) = (crossPairs f).map fun p => ((p.1 : Int), (p.2 : Int)) := by
    unfold crossPairs
    rw [List.filter_map, List.map_map]
    rfl
  unfold Boolf.bundles
  rw [g1, splitsOverlapCounts_eq h.toSound]
  simp only [bind, Except.bind]
  rw [if_pos (g2.2 hb), hd, p1]
  exact p2

/-- **C88.** `bundles` raises `BoolfNotBlightlessError` iff the function is not bloatless.  Otherwise it gives in ascending order the classes of the
positions of the atoms under the equivalence relation generated by crossing.  `is_bundle` is true iff there is just one, i.e. there are atoms, and they are all connected. -/
theorem C88_bundles (f : Boolf) (hf : Reach f) :
    (f.isBloatless = .ok false → f.bundles = .error .boolfNotBlightless ∧ f.isBundle = .error .boolfNotBlightless) ∧
    (f.isBloatless = .ok true → ∃ (l : List (List Int)) (b : Bool), f.bundles = .ok l ∧ f.isBundle = .ok b ∧ l.Pairwise (· < ·) ∧
      (∀ B, B ∈ l ↔ ∃ e < f.atomvals.length, B.Pairwise (· < ·) ∧
        ∀ x, x ∈ B ↔ ∃ k < f.atomvals.length, x = ((k : Nat) : Int) ∧ Relation.EqvGen (Crossing f) e k) ∧
      (b = true ↔ f.atomvals ≠ [] ∧ ∀ i < f.atomvals.length, ∀ j < f.atomvals.length, Relation.EqvGen (Crossing f) i j)) := by
  have h := hf.canon
  constructor
  · intro hb
    obtain ⟨g, g1, g2⟩ := bloatless_test h
    have : f.bundles = .error .boolfNotBlightless := by
      unfold Boolf.bundles
      rw [g1]
      simp only [bind, Except.bind]
      rw [if_neg (by rw [g2, hb]; simp)]
    refine ⟨this, ?_⟩
    unfold Boolf.isBundle
    rw [this]
    rfl
  · intro hb
    obtain ⟨l, l1, l2, l3⟩ := bundles_spec h hb
    rw [h.val] at l3
    refine ⟨l, decide (l.length = 1), l1, ?_, l2, l3, ?_⟩
    · unfold Boolf.isBundle
      rw [l1]
      rfl
    · rw [decide_eq_true_eq]
      have hcls : ∀ e < f.atomvals.length, ∃ B ∈ l, ∀ x, x ∈ B ↔ ∃ k < f.atomvals.length, x = ((k : Nat) : Int) ∧ Relation.EqvGen (Crossing f) e k := by
        classical
        intro e he
        have hm : ∀ x, x ∈ ((List.range f.atomvals.length).filter fun k => decide (Relation.EqvGen (Crossing f) e k)).map (fun k : Nat => (k : Int)) ↔
            ∃ k < f.atomvals.length, x = ((k : Nat) : Int) ∧ Relation.EqvGen (Crossing f) e k := by
          intro x
          rw [List.mem_map]
          simp only [List.mem_filter, List.mem_range, decide_eq_true_eq]
          constructor
          · rintro ⟨k, ⟨h1, h2⟩, rfl⟩; exact ⟨k, h1, rfl, h2⟩
          · rintro ⟨k, h1, rfl, h2⟩; exact ⟨k, ⟨h1, h2⟩, rfl⟩
        refine ⟨_, (l3 _).2 ⟨e, he, ?_, hm⟩, hm⟩
        rw [List.pairwise_map]
        exact (List.pairwise_lt_range.filter _).imp fun h => by omega
      constructor
      · intro hl
        obtain ⟨C, rfl⟩ := List.length_eq_one_iff.1 hl
        constructor
        · intro hn
          obtain ⟨e, he, _⟩ := (l3 C).1 (by simp)
          rw [hn] at he
          simp at he
        · intro i hi j hj
          obtain ⟨B, hB, hx⟩ := hcls i hi
          obtain ⟨B', hB', hx'⟩ := hcls j hj
          rw [List.mem_singleton] at hB hB'
          subst hB
          subst hB'
          obtain ⟨k, _, hk, hr⟩ := (hx j).1 ((hx' j).2 ⟨j, hj, rfl, Relation.EqvGen.refl _⟩)
          obtain rfl : j = k := by omega
          exact hr
      · rintro ⟨hne, hall⟩
        have h0 : 0 < f.atomvals.length := List.length_pos_of_ne_nil hne
        obtain ⟨B, hB, hx⟩ := hcls 0 h0
        have heq : ∀ C ∈ l, C = B := by
          intro C hC
          obtain ⟨e, he, c1, c2⟩ := (l3 C).1 hC
          obtain ⟨e', he', b1, b2⟩ := (l3 B).1 hB
          refine int_asc_ext c1 b1 fun x => ?_
          rw [c2, b2]
          constructor
          · rintro ⟨k, hk, rfl, _⟩; exact ⟨k, hk, rfl, hall _ he' _ hk⟩
          · rintro ⟨k, hk, rfl, _⟩; exact ⟨k, hk, rfl, hall _ he _ hk⟩
        cases l with
        | nil => cases hB
        | cons C t =>
          cases t with
          | nil => rfl
          | cons D t =>
            exfalso
            rw [List.pairwise_cons] at l2
            have := l2.1 D (by simp)
            rw [heq C (by simp), heq D (by simp)] at this
            exact lt_irrefl _ this


/-! ### counts of pairs -/

/-- both positions are in the bundle -/
def both (a b : Nat) (B : List Int) : Bool := B.contains (a : Int) && B.contains (b : Int)

theorem overlapInner_spec {a b count : Nat} (bs : List (List Int)) (hn : bs.Nodup) (hc : (∃ B ∈ bs, both a b B = true) → count = 3 ∨ count = 4) :
    ∀ (d : Dict (List Int) (List (Nat × Nat) × List (Nat × Nat))), (∀ B ∈ bs, B ∈ d.keys) →
    ∃ e, overlapInner a b count bs d = .ok e ∧ e.keys = d.keys ∧
      ∀ B, e.get? B = if B ∈ bs ∧ both a b B = true then (d.get? B).map (fun v => if count = 3 then (v.1 ++ [(a, b)], v.2) else (v.1, v.2 ++ [(a, b)])) else d.get? B := by
  induction bs with
  | nil => intro d _; exact ⟨d, rfl, rfl, fun B => by simp⟩
  | cons C t ih =>
    intro d hd
    rw [List.nodup_cons] at hn
    have ih := ih hn.2 (fun ⟨B, hB, h⟩ => hc ⟨B, by simp [hB], h⟩)
    unfold overlapInner
    by_cases hC : both a b C = true
    · have hC' := hC
      unfold both at hC'
      rw [if_pos hC']
      obtain ⟨⟨three, four⟩, hv⟩ := Dict.mem_keys_iff.1 (hd C (by simp))
      rw [hv]
      simp only
      have key : ∀ v, ∃ e, overlapInner a b count t (d.set C v) = .ok e ∧ e.keys = d.keys ∧
          ∀ B, e.get? B = if B ∈ t ∧ both a b B = true then (d.get? B).map (fun v => if count = 3 then (v.1 ++ [(a, b)], v.2) else (v.1, v.2 ++ [(a, b)])) else if B = C then some v else d.get? B := by
        intro v
        have hk : (d.set C v).keys = d.keys := Dict.keys_set_of_mem v (hd C (by simp))
        obtain ⟨e, e1, e2, e3⟩ := ih (d.set C v) (fun B hB => by rw [hk]; exact hd B (by simp [hB]))
        refine ⟨e, e1, e2.trans hk, fun B => ?_⟩
        rw [e3, Dict.get?_set]
        by_cases hB : B ∈ t
        · have : C ≠ B := by rintro rfl; exact hn.1 hB
          simp [this, Ne.symm this]
        · simp [hB, eq_comm (a := C)]
      rcases hc ⟨C, by simp, hC⟩ with rfl | rfl
      · rw [if_pos rfl]
        obtain ⟨e, e1, e2, e3⟩ := key (three ++ [(a, b)], four)
        refine ⟨e, e1, e2, fun B => ?_⟩
        rw [e3]
        by_cases hB : B = C
        · subst hB; simp [hn.1, hC, hv]
        · simp [hB]
      · rw [if_neg (by decide), if_pos rfl]
        obtain ⟨e, e1, e2, e3⟩ := key (three, four ++ [(a, b)])
        refine ⟨e, e1, e2, fun B => ?_⟩
        rw [e3]
        by_cases hB : B = C
        · subst hB; simp [hn.1, hC, hv]
        · simp [hB]
    · have hC' := hC
      unfold both at hC'
      rw [if_neg hC']
      obtain ⟨e, e1, e2, e3⟩ := ih d (fun B hB => hd B (by simp [hB]))
      refine ⟨e, e1, e2, fun B => ?_⟩
      rw [e3]
      by_cases hB : B = C
      · subst hB; simp [hn.1, hC]
      · simp [hB]

theorem overlapLoop_spec (bs : List (List Int)) (hn : bs.Nodup) (l : List ((Nat × Nat) × Nat))
    (hc : ∀ p ∈ l, (∃ B ∈ bs, both p.1.1 p.1.2 B = true) → p.2 = 3 ∨ p.2 = 4) :
    ∀ (d : Dict (List Int) (List (Nat × Nat) × List (Nat × Nat))), (∀ B ∈ bs, B ∈ d.keys) →
    ∃ e, overlapLoop bs l d = .ok e ∧ e.keys = d.keys ∧
      ∀ B ∈ bs, e.get? B = (d.get? B).map fun v =>
        (v.1 ++ (l.filter fun p => both p.1.1 p.1.2 B && decide (p.2 = 3)).map Prod.fst, v.2 ++ (l.filter fun p => both p.1.1 p.1.2 B && decide (p.2 = 4)).map Prod.fst) := by
  induction l with
  | nil => intro d _; exact ⟨d, rfl, rfl, fun B _ => by simp⟩
  | cons p t ih =>
    obtain ⟨⟨a, b⟩, count⟩ := p
    intro d hd
    have hcc := hc ((a, b), count) (by simp)
    obtain ⟨e, e1, e2, e3⟩ := overlapInner_spec bs hn hcc d hd
    obtain ⟨r, r1, r2, r3⟩ := ih (fun p hp => hc p (by simp [hp])) e (fun B hB => by rw [e2]; exact hd B hB)
    refine ⟨r, ?_, r2.trans e2, fun B hB => ?_⟩
    · unfold overlapLoop
      rw [e1]
      exact r1
    · rw [r3 B hB, e3]
      obtain ⟨v, hv⟩ := Dict.mem_keys_iff.1 (hd B hB)
      rw [hv]
      by_cases hbb : both a b B = true
      · rcases hcc ⟨B, hB, hbb⟩ with h3 | h3
        · simp only at h3; subst h3; simp [hB, hbb]
        · simp only at h3; subst h3; simp [hB, hbb]
      · simp [hbb]

/-- connected atoms have both values, if they are different -/
theorem connected_twosided {f : Boolf} (h : Canon f) {i j : Nat} (hr : Relation.EqvGen (Crossing f) i j) (hij : i ≠ j) :
    oneside f.fullspots i = false ∧ oneside f.fullspots j = false := by
  have key : ∀ i j, Crossing f i j → oneside f.fullspots i = false := by
    intro i j hc
    obtain ⟨x, y, hx, hy, hxy, hc⟩ := hc
    rw [← Bool.not_eq_true, oneside_key h.toSound hx]
    rintro (h1 | h1)
    · obtain ⟨k, k1, k2, _⟩ := hc false false
      rw [h1 k k1] at k2; cases k2
    · obtain ⟨k, k1, k2, _⟩ := hc true true
      rw [h1 k k1] at k2; cases k2
  have gen : ∀ {i j}, Relation.EqvGen (Crossing f) i j → i = j ∨ (oneside f.fullspots i = false ∧ oneside f.fullspots j = false) := by
    intro i j hr
    induction hr with
    | rel u v hc => exact Or.inr ⟨key u v hc, key v u hc.symm⟩
    | refl u => exact Or.inl rfl
    | symm u v _ ih =>
      rcases ih with rfl | ⟨h1, h2⟩
      · exact Or.inl rfl
      · exact Or.inr ⟨h2, h1⟩
    | trans u v w _ _ ih1 ih2 =>
      rcases ih1 with rfl | ⟨h1, h2⟩
      · exact ih2
      · rcases ih2 with rfl | ⟨h3, h4⟩
        · exact Or.inr ⟨h1, h2⟩
        · exact Or.inr ⟨h1, h4⟩
  rcases gen hr with rfl | h1
  · exact absurd rfl hij
  · exact h1

theorem bloatless_unrelated {f : Boolf} (h : Canon f) (hb : f.isBloatless = .ok true) {i j : Nat} (hij : i < j) (hj : j < f.valency) : related f.fullspots i j = false := by
  obtain ⟨b, c, b1, _, _, b4, _⟩ := C83_bloatless_blotless f h.reach
  rw [hb] at b1; cases b1
  obtain ⟨x, hx⟩ := atom_some h.toSound (show i < f.valency by omega)
  obtain ⟨y, hy⟩ := atom_some h.toSound hj
  obtain ⟨⟨k, k1, k2⟩, ⟨k', k3, k4⟩⟩ := b4.1 rfl x (List.mem_of_getElem? hx) y (List.mem_of_getElem? hy) (Nat.ne_of_lt (getElem_lt h.asc hx hy hij))
  rw [← Bool.not_eq_true, related_key h.toSound hx hy]
  rintro (h1 | h1)
  · exact k4 (h1 k' k3)
  · exact h1 k k1 k2

/-- **C88.** `bundle_overlap_counts` raises `BoolfNotBlightlessError` iff the function is not bloatless, and no other exception.  Its keys are the bundles, in the same order.  The entries for 3 and 4
are the pairs of different positions in the bundle, those that do not cross and those that do. -/
theorem C88_bundle_overlap_counts (f : Boolf) (hf : Reach f) :
    (f.isBloatless = .ok false → f.bundleOverlapCounts = .error .boolfNotBlightless) ∧
    (f.isBloatless = .ok true → ∃ l d, f.bundles = .ok l ∧ f.bundleOverlapCounts = .ok d ∧ d.keys = l ∧
      ∀ B ∈ l, ∃ three four, d.get? B = some (three, four) ∧ three.Nodup ∧ four.Nodup ∧
        (∀ i j, (i, j) ∈ three ↔ i < j ∧ (i : Int) ∈ B ∧ (j : Int) ∈ B ∧ ¬ Crossing f i j) ∧
        (∀ i j, (i, j) ∈ four ↔ i < j ∧ (i : Int) ∈ B ∧ (j : Int) ∈ B ∧ Crossing f i j)) := by
  have h := hf.canon
  obtain ⟨g, g1, g2⟩ := bloatless_test h
  constructor
  · intro hb
    unfold Boolf.bundleOverlapCounts
    rw [g1]
    simp only [bind, Except.bind]
    rw [if_neg (by rw [g2, hb]; simp)]
  · intro hb
    obtain ⟨l, l1, l2, l3⟩ := bundles_spec h hb
    have hn : l.Nodup := l2.imp fun h => ne_of_lt h
    have hboth : ∀ {i j : Nat} {B : List Int}, both i j B = true ↔ (i : Int) ∈ B ∧ (j : Int) ∈ B := by
      intro i j B
      unfold both
      rw [Bool.and_eq_true, List.contains_iff_mem, List.contains_iff_mem]
    have hin : ∀ {i j : Nat} {B : List Int}, B ∈ l → i < j → (i : Int) ∈ B → (j : Int) ∈ B → j < f.valency ∧
        (countSplitRegions (splitOf f.fullspots i) (splitOf f.fullspots j) = 3 ∨ countSplitRegions (splitOf f.fullspots i) (splitOf f.fullspots j) = 4) := by
      intro i j B hB hij hi hj
      obtain ⟨e, he, _, hx⟩ := (l3 B).1 hB
      obtain ⟨i', hi1, hi2, hi3⟩ := (hx _).1 hi
      obtain ⟨j', hj1, hj2, hj3⟩ := (hx _).1 hj
      obtain rfl : i = i' := by omega
      obtain rfl : j = j' := by omega
      have hr := (hi3.symm _ _).trans _ _ _ hj3
      obtain ⟨o1, o2⟩ := connected_twosided h hr (by omega)
      exact ⟨hj1, count_blightless (bloatless_unrelated h hb hij hj1) o1 o2⟩
    have hk0 : Dict.keys (l.map fun bundle => (bundle, (([], []) : List (Nat × Nat) × List (Nat × Nat)))) = l := by
      unfold Dict.keys
      rw [List.map_map]
      exact List.map_id l
    have hd0 : Dict.ofPairs (l.map fun bundle => (bundle, (([], []) : List (Nat × Nat) × List (Nat × Nat)))) = l.map fun bundle => (bundle, ([], [])) :=
      Dict.ofPairs_of_nodup (by rw [hk0]; exact hn)
    obtain ⟨d, d1, d2, d3⟩ := overlapLoop_spec l hn ((pairsBelow f.valency).map fun p => (p, countSplitRegions (splitOf f.fullspots p.1) (splitOf f.fullspots p.2))) (by
      rintro ⟨⟨i, j⟩, c⟩ hp ⟨B, hB, hbb⟩
      rw [List.mem_map] at hp
      obtain ⟨⟨i', j'⟩, hp, he⟩ := hp
      cases he
      rw [mem_pairsBelow] at hp
      rw [hboth] at hbb
      exact (hin hB hp.1 hbb.1 hbb.2).2) (l.map fun bundle => (bundle, ([], []))) (by rw [hk0]; exact fun B hB => hB)
    refine ⟨l, d, l1, ?_, d2.trans hk0, fun B hB => ?_⟩
    · unfold Boolf.bundleOverlapCounts
      rw [g1, l1, splitsOverlapCounts_eq h.toSound]
      simp only [bind, Except.bind]
      rw [if_pos (g2.2 hb), hd0]
      exact d1
    · have hv : Dict.get? (l.map fun bundle => (bundle, (([], []) : List (Nat × Nat) × List (Nat × Nat)))) B = some ([], []) := by
        rw [Dict.get?_iff_mem (by rw [hk0]; exact hn)]
        exact List.mem_map.2 ⟨B, hB, rfl⟩
      have hlist : ∀ c : Nat, (((pairsBelow f.valency).map fun p => (p, countSplitRegions (splitOf f.fullspots p.1) (splitOf f.fullspots p.2))).filter fun p => both p.1.1 p.1.2 B && decide (p.2 = c)).map Prod.fst =
          (pairsBelow f.valency).filter fun p => both p.1 p.2 B && decide (countSplitRegions (splitOf f.fullspots p.1) (splitOf f.fullspots p.2) = c) := by
        intro c
        rw [List.filter_map, List.map_map]
        exact List.map_id _
      refine ⟨_, _, by rw [d3 B hB, hv, Option.map_some, hlist, hlist, List.nil_append, List.nil_append], (pairsBelow_nodup _).filter _, (pairsBelow_nodup _).filter _, ?_, ?_⟩
      · intro i j
        rw [List.mem_filter, mem_pairsBelow, Bool.and_eq_true, hboth, decide_eq_true_eq]
        constructor
        · rintro ⟨⟨h1, h2⟩, ⟨h3, h4⟩, h5⟩
          refine ⟨h1, h3, h4, ?_⟩
          rw [crossing_iff h h1 h2, h5]
          decide
        · rintro ⟨h1, h3, h4, h5⟩
          obtain ⟨h6, h7⟩ := hin hB h1 h3 h4
          rw [crossing_iff h h1 h6] at h5
          exact ⟨⟨h1, h6⟩, ⟨h3, h4⟩, h7.resolve_right h5⟩
      · intro i j
        rw [List.mem_filter, mem_pairsBelow, Bool.and_eq_true, hboth, decide_eq_true_eq]
        constructor
        · rintro ⟨⟨h1, h2⟩, ⟨h3, h4⟩, h5⟩
          exact ⟨h1, h3, h4, (crossing_iff h h1 h2).2 h5⟩
        · rintro ⟨h1, h3, h4, h5⟩
          have h6 := (crossing_lt h h5).2.1
          exact ⟨⟨h1, h6⟩, ⟨h3, h4⟩, (crossing_iff h h1 h6).1 h5⟩

/-- positions in the bundle whose atoms do not cross -/
def GridPair (f : Boolf) (B : List Int) (i j : Nat) : Prop := i ≠ j ∧ (i : Int) ∈ B ∧ (j : Int) ∈ B ∧ ¬ Crossing f i j

/-- **C88.** `bundle_grid_partitions` raises `BoolfNotBlightlessError` iff the function is not blightless.  Otherwise its keys are the bundles, in the same order, and
different numbers are in the same block of the partition of a bundle iff they are connected by pairs in the bundle that do not cross. -/
theorem C88_bundle_grid_partitions (f : Boolf) (hf : Reach f) :
    (f.isBlightless = .ok false → f.bundleGridPartitions = .error .boolfNotBlightless) ∧
    (f.isBlightless = .ok true → ∃ l d, f.bundles = .ok l ∧ f.bundleGridPartitions = .ok d ∧ d.keys = l ∧
      ∀ B ∈ l, ∃ p, d.get? B = some p ∧ WF p ∧ p.domain = .N ∧ ∀ x y : Int, x ≠ y →
        (p.pairInSameBlock x y = true ↔ ∃ i j : Nat, x = i ∧ y = j ∧ Relation.EqvGen (GridPair f B) i j)) := by
  have h := hf.canon
  constructor
  · intro hb
    unfold Boolf.bundleGridPartitions
    rw [hb]
    rfl
  · intro hb
    have hbl : f.isBloatless = .ok true := by
      obtain ⟨b, c, b1, _, b3, _⟩ := C83_bloatless_blotless f hf
      rw [hb, Except.ok.injEq, eq_comm, Bool.and_eq_true] at b3
      rw [b1, b3.1]
    obtain ⟨l, d, l1, d1, d2, d3⟩ := (C88_bundle_overlap_counts f hf).2 hbl
    obtain ⟨l', l1', l2, _⟩ := bundles_spec h hbl
    rw [l1] at l1'; cases l1'
    have hn : l.Nodup := l2.imp fun h => ne_of_lt h
    have hg : ∀ B ∈ l, ∃ p, gridPartition d B = .ok p ∧ WF p ∧ p.domain = .N ∧ ∀ x y : Int, x ≠ y →
        (p.pairInSameBlock x y = true ↔ ∃ i j : Nat, x = i ∧ y = j ∧ Relation.EqvGen (GridPair f B) i j) := by
      intro B hB
      obtain ⟨three, four, e1, _, _, e4, _⟩ := d3 B hB
      obtain ⟨p, p1, p2, p3, p4⟩ := mergeAll_nat three
      refine ⟨p, ?_, p2, p3, fun x y hxy => ?_⟩
      · unfold gridPartition
        rw [e1]
        exact p1
      · have heq : ∀ i j, Relation.EqvGen (fun i j => (i, j) ∈ three) i j ↔ Relation.EqvGen (GridPair f B) i j := by
          intro i j
          constructor
          · intro hr
            induction hr with
            | rel u v hp =>
              obtain ⟨h1, h2, h3, h4⟩ := (e4 u v).1 hp
              exact Relation.EqvGen.rel _ _ ⟨by omega, h2, h3, h4⟩
            | refl u => exact Relation.EqvGen.refl _
            | symm u v _ ih => exact Relation.EqvGen.symm _ _ ih
            | trans u v w _ _ ih1 ih2 => exact Relation.EqvGen.trans _ _ _ ih1 ih2
          · intro hr
            induction hr with
            | rel u v hp =>
              obtain ⟨h1, h2, h3, h4⟩ := hp
              rcases Nat.lt_or_gt_of_ne h1 with h5 | h5
              · exact Relation.EqvGen.rel _ _ ((e4 u v).2 ⟨h5, h2, h3, h4⟩)
              · exact Relation.EqvGen.symm _ _ (Relation.EqvGen.rel _ _ ((e4 v u).2 ⟨h5, h3, h2, fun hc => h4 hc.symm⟩))
            | refl u => exact Relation.EqvGen.refl _
            | symm u v _ ih => exact Relation.EqvGen.symm _ _ ih
            | trans u v w _ _ ih1 ih2 => exact Relation.EqvGen.trans _ _ _ ih1 ih2
        rw [p2.pairInSameBlock]
        have : Joined p.blocks x y ↔ Eqv p.blocks x y := ⟨fun h => Or.inr h, fun h => h.resolve_left hxy⟩
        rw [this, p4]
        simp only [heq]
        exact ⟨fun h => h.resolve_left hxy, fun h => Or.inr h⟩
    have : Nonempty (SetPart Unit) := ⟨setTrivial .N {}⟩
    choose! P hP1 hP2 hP3 hP4 using hg
    have hm : (l.mapM fun bundle : List Int => do return (bundle, ← gridPartition d bundle)) = (.ok (l.map fun B => (B, P B)) : Except Err _) := by
      apply mapM_ok
      intro B hB
      rw [hP1 B hB]
      rfl
    have hk : Dict.keys (l.map fun B => (B, P B)) = l := by
      unfold Dict.keys
      rw [List.map_map]
      exact List.map_id l
    refine ⟨l, l.map fun B => (B, P B), l1, ?_, hk, fun B hB => ⟨P B, ?_, hP2 B hB, hP3 B hB, hP4 B hB⟩⟩
    · unfold Boolf.bundleGridPartitions
      rw [hb, l1, d1]
      simp only [bind, Except.bind, pure, Except.pure, if_true]
      simp only [bind, Except.bind, pure, Except.pure] at hm
      rw [hm]
      simp only
      congr 1
      exact Dict.ofPairs_of_nodup (by rw [hk]; exact hn)
    · rw [Dict.get?_iff_mem (by rw [hk]; exact hn)]
      exact List.mem_map.2 ⟨B, hB, rfl⟩

/-- the function true at 0, 1, 2, 4: three atoms, no two cross, three bundles -/
example : ∃ f, newTT (.str ['1', '1', '1', '0', '1', '0', '0', '0']) = .ok f ∧ Reach f ∧ f.isBlightless = .ok true ∧ f.bundles = .ok [[0], [1], [2]] ∧
    f.isBundle = .ok false ∧ f.bundleOverlapCounts.map (fun d => d.values) = .ok [([], []), ([], []), ([], [])] := by
  obtain ⟨_, e1, e2⟩ := newTT_explicit ['1', '1', '1', '0', '1', '0', '0', '0'] [true, true, true, false, true, false, false, false] [0, 1, 2] 3
    (by decide) (by decide) (by decide) (by intro n; simp; omega) (by decide) (by decide)
  exact ⟨_, e1 (by decide), e2.reach, by decide +kernel, by decide +kernel, by decide +kernel, by decide +kernel⟩

/-- the function true at 0, 3, 4, 5, 7: the atom 2 crosses both others, which do not cross -/
example : ∃ f, newTT (.str ['1', '0', '0', '1', '1', '1', '0', '1']) = .ok f ∧ Reach f ∧ f.isBlightless = .ok true ∧ f.bundles = .ok [[0, 1, 2]] ∧
    f.isBundle = .ok true ∧ f.bundleOverlapCounts.map (fun d => d.values) = .ok [([(0, 1)], [(0, 2), (1, 2)])] ∧
    f.bundleGridPartitions.map (fun d => d.map fun p => (p.1, p.2.blocks)) = .ok [([0, 1, 2], [[0, 1]])] := by
  obtain ⟨_, e1, e2⟩ := newTT_explicit ['1', '0', '0', '1', '1', '1', '0', '1'] [true, false, false, true, true, true, false, true] [0, 1, 2] 3
    (by decide) (by decide) (by decide) (by intro n; simp; omega) (by decide) (by decide)
  exact ⟨_, e1 (by decide), e2.reach, by decide +kernel, by decide +kernel, by decide +kernel, by decide +kernel, by decide +kernel⟩

end Verif.BF
