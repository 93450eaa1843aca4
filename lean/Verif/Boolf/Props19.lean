import Verif.Boolf.Props18

/-!
# Representative atoms, bloatless functions (C84)
-/

namespace Verif.BF

open Verif.Py Verif.BV Verif.P Verif.W Verif.SP Verif.SPC
open Verif.A hiding Mat

/-! ### classes of related atoms -/

theorem related_refl (F : List Nat) (a : Nat) : related F a a = true := related_iff.2 (Or.inl fun _ _ => rfl)

theorem related_symm {F : List Nat} {a b : Nat} (h : related F a b = true) : related F b a = true :=
  related_iff.2 ((related_iff.1 h).imp EqOn.symm NeOn.symm)

theorem related_trans {F : List Nat} {a b c : Nat} (h : related F a b = true) (h' : related F b c = true) : related F a c = true := by
  rw [related_iff] at *
  rcases h with h | h <;> rcases h' with h' | h'
  · exact Or.inl fun s hs => (h s hs).trans (h' s hs)
  · exact Or.inr fun s hs => by rw [h s hs]; exact h' s hs
  · exact Or.inr fun s hs => by rw [← h' s hs]; exact h s hs
  · refine Or.inl fun s hs => ?_
    have h1 := h s hs
    have h2 := h' s hs
    revert h1 h2
    cases spotVal s a <;> cases spotVal s b <;> cases spotVal s c <;> simp

/-- the atoms that are equal or complementary to an atom -/
def cls (F : List Nat) (n e : Nat) : List Nat := (List.range n).filter (related F e)

theorem mem_cls {F : List Nat} {n e b : Nat} : b ∈ cls F n e ↔ b < n ∧ related F e b = true := by
  unfold cls; rw [List.mem_filter, List.mem_range]

theorem cls_asc (F : List Nat) (n e : Nat) : (cls F n e).Pairwise (· < ·) := List.pairwise_lt_range.filter _

theorem self_cls {F : List Nat} {n e : Nat} (he : e < n) : e ∈ cls F n e := mem_cls.2 ⟨he, related_refl F e⟩

theorem cls_eq {F : List Nat} {n a b : Nat} (h : related F a b = true) : cls F n a = cls F n b :=
  asc_ext (cls_asc _ _ _) (cls_asc _ _ _) fun x => by
    rw [mem_cls, mem_cls]
    exact and_congr_right fun _ => ⟨fun h' => related_trans (related_symm h) h', fun h' => related_trans h h'⟩

/-- the atom chosen for its class: the first one that is true at the given spot, or the first one -/
def repK (F : List Nat) (n e : Nat) : Nat :=
  ((cls F n e).find? fun b => (F.headD 0).testBit b).getD ((cls F n e).headD 0)

theorem head_le {l : List Nat} (hl : l.Pairwise (· < ·)) {x : Nat} (hx : x ∈ l) : l.headD 0 ∈ l ∧ l.headD 0 ≤ x := by
  cases l with
  | nil => cases hx
  | cons a t =>
    refine ⟨by simp, ?_⟩
    rcases List.mem_cons.1 hx with rfl | h
    · exact Nat.le_refl _
    · exact Nat.le_of_lt ((List.pairwise_cons.1 hl).1 x h)

/-- what is chosen -/
theorem repK_spec {F : List Nat} {n e : Nat} (he : e < n) :
    repK F n e ∈ cls F n e ∧
    (((F.headD 0).testBit (repK F n e) = true ∧ ∀ b ∈ cls F n e, (F.headD 0).testBit b = true → repK F n e ≤ b) ∨
     ((∀ b ∈ cls F n e, (F.headD 0).testBit b = false) ∧ ∀ b ∈ cls F n e, repK F n e ≤ b)) := by
  have hh := fun x hx => head_le (cls_asc F n e) (x := x) hx
  unfold repK
  cases hf : (cls F n e).find? fun b => (F.headD 0).testBit b with
  | none =>
    rw [List.find?_eq_none] at hf
    exact ⟨(hh e (self_cls he)).1, Or.inr ⟨fun b hb => by simpa using hf b hb, fun b hb => (hh b hb).2⟩⟩
  | some r =>
    rw [Option.getD_some]
    refine ⟨List.mem_of_find?_eq_some hf, Or.inl ⟨by simpa using List.find?_some hf, fun b hb h1 => ?_⟩⟩
    obtain ⟨_, i, hi, e1, e2⟩ := List.find?_eq_some_iff_getElem.1 hf
    obtain ⟨j, hj, rfl⟩ := List.getElem_of_mem hb
    by_contra hc
    have hji : j < i := by
      by_contra hji
      rcases Nat.lt_or_ge i j with h2 | h2
      · have := List.pairwise_iff_getElem.1 (cls_asc F n e) i j hi hj h2
        omega
      · obtain rfl : i = j := by omega
        omega
    have := e2 j hji
    rw [h1] at this; simp at this

theorem repK_lt {F : List Nat} {n e : Nat} (he : e < n) : repK F n e < n := (mem_cls.1 (repK_spec he).1).1

theorem repK_related {F : List Nat} {n e : Nat} (he : e < n) : related F e (repK F n e) = true := (mem_cls.1 (repK_spec he).1).2

theorem repK_congr {F : List Nat} {n a b : Nat} (h : related F a b = true) : repK F n a = repK F n b := by
  unfold repK; rw [cls_eq h]

theorem repK_idem {F : List Nat} {n e : Nat} (he : e < n) : repK F n (repK F n e) = repK F n e := (repK_congr (repK_related he)).symm

theorem repK_inj {F : List Nat} {n a b : Nat} (ha : a < n) (hb : b < n) : repK F n a = repK F n b ↔ related F a b = true := by
  constructor
  · intro h
    exact related_trans (repK_related ha) (h ▸ related_symm (repK_related hb))
  · exact repK_congr

/-- the chosen atoms -/
def reps (F : List Nat) (n : Nat) : List Nat := (List.range n).filter fun r => decide (repK F n r = r)

theorem mem_reps {F : List Nat} {n r : Nat} : r ∈ reps F n ↔ r < n ∧ repK F n r = r := by
  unfold reps; rw [List.mem_filter, List.mem_range, decide_eq_true_eq]

theorem reps_asc (F : List Nat) (n : Nat) : (reps F n).Pairwise (· < ·) := List.pairwise_lt_range.filter _

theorem repK_mem {F : List Nat} {n e : Nat} (he : e < n) : repK F n e ∈ reps F n := mem_reps.2 ⟨repK_lt he, repK_idem he⟩

theorem reps_unrelated {F : List Nat} {n r t : Nat} (hr : r ∈ reps F n) (ht : t ∈ reps F n) (hne : r ≠ t) : related F r t = false := by
  rw [← Bool.not_eq_true, ← repK_inj (mem_reps.1 hr).1 (mem_reps.1 ht).1, (mem_reps.1 hr).2, (mem_reps.1 ht).2]
  exact hne

/-- atoms of the class with different truth values -/
def mixed (F : List Nat) (n e : Nat) : Bool := (cls F n e).any fun b => (F.headD 0).testBit b != (F.headD 0).testBit ((cls F n e).headD 0)

def prefK (F : List Nat) (n e : Nat) : Option Int := if mixed F n e then some (repK F n e : Int) else none

/-! ### the blocks -/

theorem closure_related {F : List Nat} {n : Nat} (x y : Int) :
    Closure Eq (((pairsBelow n).filter fun p => related F p.1 p.2).map fun p => ((p.1 : Int), (p.2 : Int))) x y ↔
      x = y ∨ ∃ a b : Nat, a < n ∧ b < n ∧ x = a ∧ y = b ∧ related F a b = true := by
  constructor
  · intro h
    induction h with
    | rel u v h =>
      rcases h with h | h
      · exact Or.inl h
      · rw [List.mem_map] at h
        obtain ⟨⟨a, b⟩, hp, he⟩ := h
        rw [List.mem_filter, mem_pairsBelow] at hp
        cases he
        exact Or.inr ⟨a, b, by omega, hp.1.2, rfl, rfl, hp.2⟩
    | refl u => exact Or.inl rfl
    | symm u v _ ih =>
      rcases ih with rfl | ⟨a, b, ha, hb, rfl, rfl, hr⟩
      · exact Or.inl rfl
      · exact Or.inr ⟨b, a, hb, ha, rfl, rfl, related_symm hr⟩
    | trans u v w _ _ ih1 ih2 =>
      rcases ih1 with rfl | ⟨a, b, ha, hb, rfl, rfl, hr⟩
      · exact ih2
      · rcases ih2 with rfl | ⟨c, d, hc, hd, h1, rfl, hr'⟩
        · exact Or.inr ⟨a, b, ha, hb, rfl, rfl, hr⟩
        · obtain rfl : b = c := by omega
          exact Or.inr ⟨a, d, ha, hd, rfl, rfl, related_trans hr hr'⟩
  · rintro (rfl | ⟨a, b, ha, hb, rfl, rfl, hr⟩)
    · exact Relation.EqvGen.refl _
    · have key : ∀ a b : Nat, a < b → b < n → related F a b = true → Closure Eq (((pairsBelow n).filter fun p => related F p.1 p.2).map fun p => ((p.1 : Int), (p.2 : Int))) a b := by
        intro a b hab hb hr
        refine Relation.EqvGen.rel _ _ (Or.inr (List.mem_map.2 ⟨(a, b), ?_, rfl⟩))
        rw [List.mem_filter, mem_pairsBelow]
        exact ⟨⟨hab, hb⟩, hr⟩
      rcases Nat.lt_trichotomy a b with h | rfl | h
      · exact key a b h hb hr
      · exact Relation.EqvGen.refl _
      · exact Relation.EqvGen.symm _ _ (key b a h ha (related_symm hr))

theorem int_asc_ext {l m : List Int} (hl : l.Pairwise (· < ·)) (hm : m.Pairwise (· < ·)) (h : ∀ x, x ∈ l ↔ x ∈ m) : l = m := by
  have hp : l.Perm m := (List.perm_ext_iff_of_nodup (hl.imp (fun h => ne_of_lt h)) (hm.imp (fun h => ne_of_lt h))).2 h
  exact hp.eq_of_pairwise (fun a b _ _ h1 h2 => by omega) hl hm

theorem equalityPartition_spec {f : Boolf} (h : Canon f) : ∃ l : List (List Int), f.equalityPartition = .ok l ∧ l.Nodup ∧
    ∀ B, B ∈ l ↔ ∃ e < f.valency, B = (cls f.fullspots f.valency e).map Int.ofNat := by
  set F := f.fullspots with hF
  set n := f.valency with hn
  have hd : (((pairsBelow n).map fun p => (p, related F p.1 p.2)).filter Prod.snd).map (fun p => ((p.1.1 : Int), (p.1.2 : Int))) =
      ((pairsBelow n).filter fun p => related F p.1 p.2).map fun p => ((p.1 : Int), (p.2 : Int)) := by
    rw [List.filter_map, List.map_map]
    rfl
  obtain ⟨p, p1, p2, p3, p4⟩ := mergeAll_ok (L := Unit) .N (((pairsBelow n).filter fun p => related F p.1 p.2).map fun p => ((p.1 : Int), (p.2 : Int))) (by
    intro ab hab
    rw [List.mem_map] at hab
    obtain ⟨⟨a, b⟩, _, rfl⟩ := hab
    exact Or.inr ⟨Int.natCast_nonneg a, Int.natCast_nonneg b⟩)
  have heqv : ∀ x y, Eqv p.blocks x y ↔ x = y ∨ ∃ a b : Nat, a < n ∧ b < n ∧ x = a ∧ y = b ∧ related F a b = true := fun x y => (p4 x y).trans (closure_related x y)
  have hmem : ∀ B ∈ p.blocks, ∀ x ∈ B, 0 ≤ x ∧ x < n := by
    intro B hB x hx
    have h2 := p2.canon.two B hB
    have hdd : B.Nodup := (p2.canon.lt B hB).imp (fun h => ne_of_lt h)
    obtain ⟨b, hb, hbx⟩ : ∃ b ∈ B, b ≠ x := by
      by_contra hc
      push Not at hc
      have : B.length ≤ 1 := by
        rw [← List.toFinset_card_of_nodup hdd]
        refine Finset.card_le_one.2 fun u hu w hw => ?_
        rw [hc u (List.mem_toFinset.1 hu), hc w (List.mem_toFinset.1 hw)]
      omega
    rcases (heqv x b).1 (Or.inr ⟨B, hB, hx, hb⟩) with rfl | ⟨c, d, hc, _, rfl, _⟩
    · exact absurd rfl hbx
    · omega
  have hdom : ElementsInDomain p := by
    intro B hB x hx
    rw [p3]
    exact (hmem B hB x hx).1
  obtain ⟨r, r1, r2, r3⟩ := (C58_length p p2 hdom (n : Int)).1 p3 (by
    intro l hl
    obtain ⟨m, m1, m2, m3⟩ := C58_length_attribute p p2 p3
    rw [m1] at hl; cases hl
    by_cases h0 : p.nonSingletons = []
    · rw [m2 h0]; omega
    · obtain ⟨h4, _⟩ := m3 h0
      obtain ⟨B, hB, hx⟩ := p2.mem_ns.1 h4
      have := hmem B hB _ hx
      omega)
  refine ⟨r, ?_, r2.imp (fun h => ne_of_lt h), fun B => ?_⟩
  · unfold Boolf.equalityPartition Boolf.splitsEqual
    rw [splitsEqualAndOnesided_eq h]
    simp only [bind, Except.bind, pure, Except.pure]
    rw [← hn, ← hF, hd, p1]
    exact r1
  · rw [r3]
    have hblock : ∀ e : Nat, e < n → p.elementToBlock e = (cls F n e).map Int.ofNat := by
      intro e he
      refine int_asc_ext (p2.elementToBlock_lt e) ?_ fun x => ?_
      · rw [List.pairwise_map]; exact (cls_asc F n e).imp fun h => by simpa using h
      · have h1 : x ∈ p.elementToBlock e ↔ Eqv p.blocks e x := by
          rw [p2.mem_elementToBlock]; exact or_congr_left eq_comm
        rw [h1, heqv, List.mem_map]
        simp only [mem_cls]
        constructor
        · rintro (rfl | ⟨a, b, ha, hb, h2, rfl, hr⟩)
          · exact ⟨e, ⟨he, related_refl F e⟩, rfl⟩
          · obtain rfl : e = a := by omega
            exact ⟨b, ⟨hb, hr⟩, rfl⟩
        · rintro ⟨b, ⟨hb, hr⟩, rfl⟩
          exact Or.inr ⟨e, b, he, hb, rfl, rfl, hr⟩
    constructor
    · rintro ⟨e, he, rfl⟩
      unfold rangeZ at he
      rw [List.mem_map] at he
      obtain ⟨i, hi, rfl⟩ := he
      rw [List.mem_range] at hi
      exact ⟨i, by omega, by rw [Int.zero_add, hblock i (by omega)]⟩
    · rintro ⟨e, he, rfl⟩
      refine ⟨(e : Int), ?_, (hblock e he).symm⟩
      unfold rangeZ
      rw [List.mem_map]
      exact ⟨e, by rw [List.mem_range]; omega, by omega⟩

theorem headD_mem {F : List Nat} (hF : F ≠ []) : F.headD 0 ∈ F := by cases F with | nil => exact absurd rfl hF | cons a t => simp

theorem foldl_min_nat {l : List Nat} : ∀ {a : Nat}, (∀ x ∈ l, a ≤ x) → l.foldl min a = a := by
  induction l with
  | nil => intro a _; rfl
  | cons b t ih =>
    intro a h
    rw [List.foldl_cons, Nat.min_eq_left (h b (by simp))]
    exact ih fun x hx => h x (by simp [hx])

theorem minNat_asc {l : List Nat} (hl : l.Pairwise (· < ·)) : minNat l = l.headD 0 :=
  foldl_min_nat fun _ hx => (head_le hl hx).2

/-- which of the two sides holds the first spot -/
theorem preferRecto {F : List Nat} (hF : F ≠ []) (ha : F.Pairwise (· < ·)) (r : Nat) :
    (if (splitOf F r).1 = [] ∨ (splitOf F r).2 = [] then decide ((splitOf F r).2 = []) else decide (minNat (splitOf F r).1 < minNat (splitOf F r).2)) =
      (F.headD 0).testBit r := by
  have h0 := headD_mem hF
  have a1 : (splitOf F r).1.Pairwise (· < ·) := ha.filter _
  have a2 : (splitOf F r).2.Pairwise (· < ·) := ha.filter _
  have hsub1 : ∀ x ∈ (splitOf F r).1, x ∈ F := fun x hx => (List.mem_filter.1 hx).1
  have hsub2 : ∀ x ∈ (splitOf F r).2, x ∈ F := fun x hx => (List.mem_filter.1 hx).1
  cases hb : (F.headD 0).testBit r
  · have hm : F.headD 0 ∈ (splitOf F r).2 := by unfold splitOf; rw [List.mem_filter]; simp only [hb]; exact ⟨h0, rfl⟩
    have hne : (splitOf F r).2 ≠ [] := List.ne_nil_of_mem hm
    by_cases h1 : (splitOf F r).1 = []
    · rw [if_pos (Or.inl h1)]; simp [hne]
    · rw [if_neg (by tauto), decide_eq_false_iff_not, minNat_asc a1, minNat_asc a2]
      have := (head_le a2 hm).2
      obtain ⟨x, hx⟩ := List.exists_mem_of_ne_nil _ h1
      have := (head_le ha (hsub1 _ (head_le a1 hx).1)).2
      omega
  · have hm : F.headD 0 ∈ (splitOf F r).1 := by unfold splitOf; rw [List.mem_filter]; exact ⟨h0, hb⟩
    have hne : (splitOf F r).1 ≠ [] := List.ne_nil_of_mem hm
    by_cases h1 : (splitOf F r).2 = []
    · rw [if_pos (Or.inr h1)]; simp [h1]
    · rw [if_neg (by tauto), decide_eq_true_eq, minNat_asc a1, minNat_asc a2]
      have h2 := (head_le a1 hm).2
      obtain ⟨x, hx⟩ := List.exists_mem_of_ne_nil _ h1
      have h3 := (head_le a2 hx).1
      have h4 := (head_le ha (hsub2 _ h3)).2
      have h5 : (splitOf F r).2.headD 0 ≠ F.headD 0 := by
        intro he
        rw [he] at h3
        have := (List.mem_filter.1 h3).2
        rw [hb] at this; simp at this
      omega

theorem head?_map_cls {F : List Nat} {n e : Nat} (he : e < n) : ((cls F n e).map Int.ofNat).head? = some (((cls F n e).headD 0 : Nat) : Int) := by
  have := self_cls (F := F) he
  cases h : cls F n e with
  | nil => rw [h] at this; cases this
  | cons a t => rfl

/-- related atoms are equal iff they have the same value at the first spot -/
theorem eqOn_iff_head {F : List Nat} (hF : F ≠ []) {a b : Nat} (h : related F a b = true) :
    (EqOn F a b ↔ (F.headD 0).testBit a = (F.headD 0).testBit b) ∧ (NeOn F a b ↔ (F.headD 0).testBit a ≠ (F.headD 0).testBit b) := by
  have h0 := headD_mem hF
  rcases related_iff.1 h with h | h
  · have := h _ h0
    simp only [spotVal_nat] at this
    exact ⟨⟨fun _ => this, fun _ => h⟩, ⟨fun h' => absurd (h _ h0) (h' _ h0), fun h' => absurd this h'⟩⟩
  · have := h _ h0
    simp only [spotVal_nat] at this
    exact ⟨⟨fun h' => absurd (h' _ h0) (h _ h0), fun h' => absurd h' this⟩, ⟨fun _ => this, fun _ => h⟩⟩

theorem mixed_iff {F : List Nat} {n e : Nat} : mixed F n e = true ↔ ∃ b ∈ cls F n e, (F.headD 0).testBit b ≠ (F.headD 0).testBit ((cls F n e).headD 0) := by
  unfold mixed
  rw [List.any_eq_true]
  simp

theorem mixed_congr {F : List Nat} {n a b : Nat} (h : related F a b = true) : mixed F n a = mixed F n b := by
  unfold mixed; rw [cls_eq h]

theorem prefK_congr {F : List Nat} {n a b : Nat} (h : related F a b = true) : prefK F n a = prefK F n b := by
  unfold prefK; rw [mixed_congr h, repK_congr h]

/-- in a class without complements the first atom is chosen -/
theorem repK_unmixed {F : List Nat} {n e : Nat} (he : e < n) (hm : mixed F n e = false) : repK F n e = (cls F n e).headD 0 := by
  have hall : ∀ b ∈ cls F n e, (F.headD 0).testBit b = (F.headD 0).testBit ((cls F n e).headD 0) := by
    intro b hb
    by_contra hc
    rw [mixed_iff.2 ⟨b, hb, hc⟩] at hm; cases hm
  obtain ⟨h1, h2⟩ := repK_spec (F := F) he
  have h3 := head_le (cls_asc F n e) h1
  rcases h2 with ⟨h4, h5⟩ | ⟨_, h5⟩
  · have := h5 _ h3.1 (by rw [← hall _ h1, h4]); omega
  · have := h5 _ h3.1; omega

theorem areComp_nat {F : List Nat} {n : Nat} {s : SetPartComp} (hF : F ≠ []) (h : SPC.Reach (· ∈ bloatFacts F n) s) {a : Nat} (ha : a < n) (z : Int) :
    s.areComp a z = true ↔ ∃ b : Nat, z = b ∧ b < n ∧ NeOn F a b := by
  constructor
  · intro hz
    by_cases hc : z < 0 ∨ (n : Int) ≤ z
    · have := (no_info h (fun v hv => bloat_flip hc v hv) (b := (a : Int)) (by omega)).2.2.2
      rw [hz] at this; cases this
    · push Not at hc
      obtain ⟨b, rfl⟩ : ∃ b : Nat, z = b := ⟨z.toNat, by omega⟩
      exact ⟨b, rfl, by omega, (bloat_sem hF h ha (by omega)).2.1 hz⟩
  · rintro ⟨b, rfl, hb, hn⟩
    exact (bloat_sem hF h ha hb).2.2 hn

theorem preferredSide_spec {F : List Nat} {n : Nat} {s : SetPartComp} (hF : F ≠ []) (hasc : F.Pairwise (· < ·)) (h : SPC.Reach (· ∈ bloatFacts F n) s)
    {e : Nat} (he : e < n) :
    preferredSide ((List.range n).map (splitOf F)) s ((cls F n e).map Int.ofNat) = .ok (prefK F n e) := by
  have hme := head_le (cls_asc F n e) (self_cls he)
  have hmlt := (mem_cls.1 hme.1).1
  set m := (cls F n e).headD 0 with hm
  unfold preferredSide
  by_cases h1 : ((cls F n e).map Int.ofNat).length = 1
  · rw [if_pos h1]
    congr 1
    unfold prefK
    rw [if_neg]
    rw [mixed_iff]
    rintro ⟨b, hb, hne⟩
    rw [List.length_map, List.length_eq_one_iff] at h1
    obtain ⟨x, hx⟩ := h1
    rw [← hm] at hne
    rw [hx] at hb hm
    simp only [List.mem_singleton, List.headD_cons] at hb hm
    rw [hb, hm] at hne
    exact hne rfl
  · rw [if_neg h1, head?_map_cls he, ← hm]
    simp only
    obtain ⟨c1, c2⟩ := C45_get_comp _ s h (m : Int)
    have hcomp := areComp_nat hF h hmlt
    cases hg : s.getComp (m : Int) with
    | none =>
      simp only
      congr 1
      unfold prefK
      rw [if_neg]
      rw [mixed_iff]
      rintro ⟨b, hb, hne⟩
      have hall := c1.1 hg b
      have hr : related F m b = true := related_trans (related_symm (mem_cls.1 hme.1).2) (mem_cls.1 hb).2
      rw [(hcomp b).2 ⟨b, rfl, (mem_cls.1 hb).1, (eqOn_iff_head hF hr).2.2 (Ne.symm hne)⟩] at hall
      cases hall
    | some z =>
      obtain ⟨d1, d2⟩ := c2 z hg
      obtain ⟨b, rfl, hb, hn⟩ := (hcomp z).1 d1
      have hbm : b ∈ cls F n e := mem_cls.2 ⟨hb, related_trans (mem_cls.1 hme.1).2 (related_iff.2 (Or.inr hn))⟩
      have hr : related F m b = true := related_iff.2 (Or.inr hn)
      have hne := (eqOn_iff_head hF hr).2.1 hn
      simp only
      rw [Int.toNat_natCast, item_splits F hmlt]
      simp only [bind, Except.bind, pure, Except.pure]
      rw [preferRecto hF hasc]
      have hmix : mixed F n e = true := mixed_iff.2 ⟨b, hbm, Ne.symm hne⟩
      unfold prefK
      rw [if_pos hmix]
      congr 2
      obtain ⟨r1, r2⟩ := repK_spec (F := F) he
      have hr1 := (head_le (cls_asc F n e) r1).2
      rw [← hm] at hr1
      cases hmb : (F.headD 0).testBit m
      · rw [if_neg (by simp)]
        rcases r2 with ⟨r3, r4⟩ | ⟨r3, r4⟩
        · have hb1 : (F.headD 0).testBit b = true := by rw [hmb] at hne; simpa using Ne.symm hne
          have h5 := r4 b hbm hb1
          have hr' : related F m (repK F n e) = true := related_trans (related_symm (mem_cls.1 hme.1).2) (mem_cls.1 r1).2
          have h6 := d2 (repK F n e : Nat) ((hcomp _).2 ⟨_, rfl, (mem_cls.1 r1).1, (eqOn_iff_head hF hr').2.2 (by rw [hmb, r3]; simp)⟩)
          omega
        · exfalso
          rw [hmb, r3 b hbm] at hne; exact hne rfl
      · rw [if_pos rfl]
        rcases r2 with ⟨r3, r4⟩ | ⟨r3, r4⟩
        · have := r4 m hme.1 hmb; omega
        · have := r3 m hme.1; rw [hmb] at this; cases this

theorem representative_spec {F : List Nat} {n e : Nat} (he : e < n) :
    representativeAtomkey ((cls F n e).map Int.ofNat) (prefK F n e) = .ok (repK F n e : Int) := by
  unfold representativeAtomkey prefK
  by_cases hm : mixed F n e = true
  · rw [if_pos hm]
  · rw [if_neg hm, repK_unmixed he (by simpa using hm), head?_map_cls he]

/-- sorting by different keys -/
theorem sortByKeys_spec {α : Type} (R : List Nat) (hR : R.Pairwise (· < ·)) (g : Nat → α) (keys : List Int) (l : List α)
    (hne : R ≠ []) (hp : (keys.zip l).Perm (R.map fun r : Nat => ((r : Int), g r))) : sortByKeys keys l = .ok (R.map g) := by
  unfold sortByKeys
  rw [if_neg]
  · congr 1
    have h1 : ((keys.zip l).insertionSort fun p q => p.1 ≤ q.1).Perm (R.map fun r : Nat => ((r : Int), g r)) := (List.perm_insertionSort _ _).trans hp
    have h2 : ((keys.zip l).insertionSort fun p q => p.1 ≤ q.1).Pairwise (fun p q : Int × α => p.1 ≤ q.1) := by
      have : Std.Total (fun p q : Int × α => p.1 ≤ q.1) := ⟨fun p q => Int.le_total _ _⟩
      have : IsTrans (Int × α) (fun p q => p.1 ≤ q.1) := ⟨fun p q r h h' => Int.le_trans h h'⟩
      exact List.pairwise_insertionSort _ _
    have h3 : (R.map fun r : Nat => ((r : Int), g r)).Pairwise (fun p q : Int × α => p.1 ≤ q.1) := by
      rw [List.pairwise_map]; exact hR.imp fun h => by simp; omega
    rw [h1.eq_of_pairwise (fun a b ha hb h4 h5 => ?_) h2 h3, List.map_map]
    · rfl
    · obtain ⟨r, hr, rfl⟩ := List.mem_map.1 (h1.mem_iff.1 ha)
      obtain ⟨t, ht, rfl⟩ := List.mem_map.1 hb
      simp only at h4 h5
      obtain rfl : r = t := by omega
      rfl
  · rintro rfl
    have := hp.length_eq
    simp at this
    exact hne (List.length_eq_zero_iff.1 this.symm)

/-- **blocks and preferred sides** in the order of the chosen atoms -/
theorem eqBlocks_spec {f : Boolf} (h : Canon f) (hc : f.isConstant = false) :
    f.eqBlocksAndPrefSide = .ok ((reps f.fullspots f.valency).map (fun r => (cls f.fullspots f.valency r).map Int.ofNat),
      (reps f.fullspots f.valency).map (prefK f.fullspots f.valency)) := by
  have hat : f.atomvals ≠ [] := by
    intro h0
    have := h.const
    rw [hc, h0] at this; simp at this
  have hF := fullspots_ne_nil h hat
  have hasc := fullspots_asc f
  obtain ⟨s, s1, s2⟩ := bloat_reach h
  obtain ⟨l, l1, l2, l3⟩ := equalityPartition_spec h
  have hn0 : 0 < f.valency := by rw [h.val]; exact List.length_pos_iff.2 hat
  unfold Boolf.eqBlocksAndPrefSide
  rw [if_neg (by simp [hc]), l1, splits_eq h.toSound, s1]
  simp only [bind, Except.bind, pure, Except.pure]
  generalize f.fullspots = F at *
  generalize f.valency = n at *
  -- the first atom of a block identifies it
  have hblk : ∀ B ∈ l, ∃ e < n, B = (cls F n e).map Int.ofNat := fun B hB => (l3 B).1 hB
  let first : List Int → Nat := fun B => (B.headD 0).toNat
  have hfirst : ∀ B ∈ l, first B < n ∧ B = (cls F n (first B)).map Int.ofNat := by
    intro B hB
    obtain ⟨e, he, rfl⟩ := hblk B hB
    have hme := head_le (cls_asc F n e) (self_cls he)
    have : first ((cls F n e).map Int.ofNat) = (cls F n e).headD 0 := by
      show (List.headD (α := Int) _ 0).toNat = _
      rw [List.headD_eq_head?_getD, head?_map_cls he]; rfl
    rw [this]
    exact ⟨(mem_cls.1 hme.1).1, by rw [← cls_eq (mem_cls.1 hme.1).2]⟩
  rw [mapM_ok (g := fun B => prefK F n (first B))]
  · simp only
    have hz : l.zip (l.map fun B => prefK F n (first B)) = l.map fun B => (B, prefK F n (first B)) := by
      conv_lhs => rw [← List.map_id l, List.map_map, List.zip_map']
      rfl
    rw [hz]
    rw [mapM_ok (g := fun p : List Int × Option Int => (repK F n (first p.1) : Int))]
    · simp only [List.map_map]
      have hperm : (l.map first).Perm (l.map first) := List.Perm.refl _
      have hreps : (l.map fun B => repK F n (first B)).Perm (reps F n) := by
        refine (List.perm_ext_iff_of_nodup ?_ ((reps_asc F n).imp fun h => Nat.ne_of_lt h)).2 fun r => ?_
        · refine List.Nodup.map_on (fun B hB C hC he => ?_) l2
          obtain ⟨b1, b2⟩ := hfirst B hB
          obtain ⟨c1, c2⟩ := hfirst C hC
          rw [b2, c2, cls_eq ((repK_inj b1 c1).1 he)]
        · rw [List.mem_map]
          constructor
          · rintro ⟨B, hB, rfl⟩; exact repK_mem (hfirst B hB).1
          · intro hr
            obtain ⟨r1, r2⟩ := mem_reps.1 hr
            have hB := (l3 _).2 ⟨r, r1, rfl⟩
            refine ⟨_, hB, ?_⟩
            obtain ⟨b1, b2⟩ := hfirst _ hB
            have : first ((cls F n r).map Int.ofNat) ∈ cls F n r := by
              have := self_cls (F := F) b1
              rw [← List.mem_map_of_injective (f := Int.ofNat) (fun a b h => by simpa using h)] at this
              rw [← b2, List.mem_map_of_injective (f := Int.ofNat) (fun a b h => by simpa using h)] at this
              exact this
            rw [← repK_congr (mem_cls.1 this).2, r2]
      have hne : reps F n ≠ [] := List.ne_nil_of_mem (repK_mem hn0)
      have hk : ∀ {α : Type} (g : List Int → α) (k : Nat → α), (∀ B ∈ l, g B = k (repK F n (first B))) →
          ((l.map fun B => (repK F n (first B) : Int)).zip (l.map g)).Perm ((reps F n).map fun r : Nat => ((r : Int), k r)) := by
        intro α g k hgk
        rw [List.zip_map', show l.map (fun B => ((repK F n (first B) : Int), g B)) =
          (l.map fun B => repK F n (first B)).map (fun r : Nat => ((r : Int), k r)) by
            rw [List.map_map]; exact List.map_congr_left fun B hB => by simp [hgk B hB]]
        exact hreps.map _
      have e1 := sortByKeys_spec (reps F n) (reps_asc F n) (fun r => (cls F n r).map Int.ofNat) _ _ hne
        (hk id (fun r => (cls F n r).map Int.ofNat) fun B hB => by
          obtain ⟨b1, b2⟩ := hfirst B hB
          rw [← cls_eq (repK_related b1)]; exact b2)
      have e2 := sortByKeys_spec (reps F n) (reps_asc F n) (prefK F n) _ _ hne
        (hk (fun B => prefK F n (first B)) (prefK F n) fun B hB => prefK_congr (repK_related (hfirst B hB).1))
      rw [List.map_id] at e1
      have e3 : (fun p : List Int × Option Int => (repK F n (first p.1) : Int)) ∘ (fun B => (B, prefK F n (first B))) = fun B => (repK F n (first B) : Int) := rfl
      rw [e3, e1]
      simp only
      rw [e2]
    · intro p hp
      obtain ⟨B, hB, rfl⟩ := List.mem_map.1 hp
      obtain ⟨b1, b2⟩ := hfirst B hB
      simp only
      rw [show representativeAtomkey B (prefK F n (first B)) = representativeAtomkey ((cls F n (first B)).map Int.ofNat) (prefK F n (first B)) from by rw [← b2]]
      exact representative_spec b1
  · intro B hB
    obtain ⟨b1, b2⟩ := hfirst B hB
    conv_lhs => rw [b2]
    exact preferredSide_spec hF hasc s2 b1

end Verif.BF
