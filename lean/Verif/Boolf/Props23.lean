import Verif.Boolf.Props22

/-!
# C85: blightless functions
-/

namespace Verif.BF
open Verif.Py Verif.BV Verif.P Verif.W Verif.SP Verif.SPC
open Verif.A hiding Mat

/-- onesided atoms have the value of the first spot -/
theorem oneside_head {F : List Nat} {k s : Nat} (ho : oneside F k = true) (hs : s ∈ F) :
    s.testBit k = (F.headD 0).testBit k ∧ has1 F k true = s.testBit k := by
  have h0 := headD_mem (List.ne_nil_of_mem hs)
  rcases oneside_iff.1 ho with h | h
  · have h1 := h s hs
    have h2 := h _ h0
    simp only [spotVal_nat, spotVal_neg] at h1 h2
    refine ⟨by rw [h1, h2], ?_⟩
    rw [h1, has1_iff]; exact ⟨s, hs, h1⟩
  · have h1 := h s hs
    have h2 := h _ h0
    simp only [spotVal_nat, spotVal_neg, ne_eq, Bool.not_eq_true] at h1 h2
    refine ⟨by rw [h1, h2], ?_⟩
    rw [h1, ← Bool.not_eq_true, has1_iff]
    rintro ⟨t, ht, h3⟩
    have := h t ht
    simp only [spotVal_nat, spotVal_neg] at this
    exact this h3

theorem oneside_congr {F : List Nat} {a b : Nat} (h : related F a b = true) (ha : oneside F a = true) : oneside F b = true := by
  rw [oneside_iff] at *
  rcases related_iff.1 h with h | h <;> rcases ha with ha | ha
  · exact Or.inl fun s hs => (h s hs).symm.trans (ha s hs)
  · exact Or.inr fun s hs => by rw [← h s hs]; exact ha s hs
  · exact Or.inr fun s hs => by rw [← ha s hs]; exact (h s hs).symm
  · refine Or.inl fun s hs => ?_
    have h1 := h s hs
    have h2 := ha s hs
    revert h1 h2
    cases spotVal s a <;> cases spotVal s b <;> cases spotVal s (-1) <;> simp

/-- the digits follow the blot -/
def Fixed (F : List Nat) (n s : Nat) : Prop := ∀ k < n, oneside F k = true → s.testBit k = (F.headD 0).testBit k

theorem fixed_spot {F : List Nat} (n : Nat) {s : Nat} (hs : s ∈ F) : Fixed F n s := fun _ _ ho => (oneside_head ho hs).1

theorem fixed_iff_reps {F : List Nat} {n s : Nat} (hF : F ≠ []) (hs : Follows F n s) :
    Fixed F n s ↔ ∀ r ∈ reps F n, oneside F r = true → s.testBit r = (F.headD 0).testBit r := by
  constructor
  · intro h r hr ho; exact h r (mem_reps.1 hr).1 ho
  · intro h k hk ho
    have hr := h _ (repK_mem (F := F) hk) (oneside_congr (repK_related hk) ho)
    have hh := follows_spot n (headD_mem hF)
    rcases related_iff.1 (repK_related (F := F) hk) with he | he
    · rw [(hs k _ hk (repK_lt hk)).1 he, (hh k _ hk (repK_lt hk)).1 he, hr]
    · have h1 := (hs k _ hk (repK_lt hk)).2 he
      have h2 := (hh k _ hk (repK_lt hk)).2 he
      rw [← hr] at h2
      revert h1 h2
      cases s.testBit k <;> cases (F.headD 0).testBit k <;> cases s.testBit (repK F n k) <;> simp

theorem blot_eval {f : Boolf} (h : Canon f) (hF : f.fullspots ≠ []) :
    ∃ g, f.blotBoolf = .ok g ∧ Canon g ∧ ∀ a, g.eval a = true ↔ Fixed f.fullspots f.valency (spotOf f a) := by
  obtain ⟨g, g1, g2, g3⟩ := blotBoolf_spec h
  refine ⟨g, g1, g2, fun a => ?_⟩
  rw [g3]
  unfold Fixed
  refine forall_congr' fun k => forall_congr' fun hk => forall_congr' fun ho => ?_
  rw [keyVal_spotOf h.toSound a hk, (oneside_head ho (headD_mem hF)).2]

theorem blight_eval {f : Boolf} (h : Canon f) (hF : f.fullspots ≠ []) :
    ∃ g, f.blightBoolf = .ok g ∧ Canon g ∧ ∀ a, g.eval a = true ↔ Follows f.fullspots f.valency (spotOf f a) ∧ Fixed f.fullspots f.valency (spotOf f a) := by
  obtain ⟨b, b1, b2, b3⟩ := bloat_eval h hF
  obtain ⟨c, c1, c2, c3⟩ := blot_eval h hF
  obtain ⟨g, g1, g2, g3⟩ := and_spec b2.toSound c2.toSound
  refine ⟨g, ?_, g2, fun a => by rw [g3, Bool.and_eq_true, b3, c3]⟩
  unfold Boolf.blightBoolf
  rw [b1, c1]; exact g1

/-- atoms of the bloatless function are representative -/
theorem bloatless_atoms {f g : Boolf} (h : Canon f) (hg : f.bloatlessBoolf = .ok g) {x : Nat} (hx : x ∈ g.atomvals) :
    ∃ r ∈ reps f.fullspots f.valency, f.atomvals[r]? = some x := by
  obtain ⟨g', l, g1, _, g3, g4, _⟩ := C84_bloatless_boolf f h.reach
  rw [hg] at g1; cases g1
  obtain rfl : l = reps f.fullspots f.valency := by
    rw [undeflated_all h] at g3
    exact (List.map_injective_iff.2 (fun a b h => by simpa using h) (Except.ok.inj g3)).symm
  exact g4 x hx

/-- the positions of the bloatless atoms that are not onesided -/
def freeKeys (f g : Boolf) : List Nat := (List.range f.valency).filter fun k => g.atomvals.contains (f.atomvals.getD k 0) && !oneside f.fullspots k

theorem mem_freeKeys {f g : Boolf} (h : Sound f) {k : Nat} : k ∈ freeKeys f g ↔ ∃ x, f.atomvals[k]? = some x ∧ x ∈ g.atomvals ∧ oneside f.fullspots k = false := by
  unfold freeKeys
  rw [List.mem_filter, List.mem_range, Bool.and_eq_true, List.contains_iff_mem, Bool.not_eq_true']
  constructor
  · rintro ⟨h1, h2, h3⟩
    obtain ⟨x, hx⟩ := atom_some h h1
    rw [List.getD_eq_getElem?_getD, hx] at h2
    exact ⟨x, hx, h2, h3⟩
  · rintro ⟨x, hx, h2, h3⟩
    refine ⟨by rw [h.val]; exact getElem?_some_lt hx, ?_, h3⟩
    rw [List.getD_eq_getElem?_getD, hx]; exact h2

theorem deflated_eq {f g : Boolf} (h : Canon f) (hg : f.bloatlessBoolf = .ok g) :
    f.bloatlessAtomkeysDeflated = .ok ((List.range f.valency).filter fun k => g.atomvals.contains (f.atomvals.getD k 0)) := by
  unfold Boolf.bloatlessAtomkeysDeflated
  rw [hg]
  simp only [bind, Except.bind, pure, Except.pure]
  congr 1
  have hz : f.atomvals.zipIdx = (List.range f.valency).map fun k => (f.atomvals.getD k 0, k) := by
    apply List.ext_getElem?
    intro i
    rw [List.getElem?_zipIdx, List.getElem?_map, h.val]
    by_cases hi : i < f.atomvals.length
    · rw [List.getElem?_range hi, List.getElem?_eq_getElem hi]
      simp [List.getD_eq_getElem?_getD, hi]
    · rw [List.getElem?_eq_none (by omega), List.getElem?_eq_none (by simp; omega)]; rfl
  rw [hz, List.filter_map, List.map_map]
  conv_rhs => rw [← List.map_id (List.filter _ _)]
  rfl

theorem blightlessAtomkeys_eq {f g : Boolf} (h : Canon f) (hg : f.bloatlessBoolf = .ok g) : f.blightlessAtomkeys = .ok (freeKeys f g) := by
  unfold Boolf.blightlessAtomkeys
  rw [deflated_eq h hg, onesidedAtomkeys_eq h]
  simp only [bind, Except.bind, pure, Except.pure]
  congr 1
  have hnd : ((List.range f.valency).filter fun k => g.atomvals.contains (f.atomvals.getD k 0)).Nodup := List.nodup_range.filter _
  rw [hnd.dedup, List.filter_filter]
  have : (List.range f.valency).filter (fun k => !(((List.range f.valency).filter (oneside f.fullspots)).contains k) && g.atomvals.contains (f.atomvals.getD k 0)) = freeKeys f g := by
    unfold freeKeys
    apply List.filter_congr
    intro k hk
    rw [Bool.and_comm]
    congr 2
    rw [Bool.eq_iff_iff, List.contains_iff_mem, List.mem_filter]
    exact ⟨fun h => h.2, fun h => ⟨hk, h⟩⟩
  rw [this]
  exact sorted_eq_self (List.pairwise_lt_range.filter _)

theorem blightless_eval {f : Boolf} (h : Canon f) :
    ∃ k, f.blightlessBoolf = .ok k ∧ Canon k ∧
      ∀ a, k.eval a = true ↔ ∃ s ∈ f.fullspots, ∀ r ∈ reps f.fullspots f.valency, oneside f.fullspots r = false → s.testBit r = (spotOf f a).testBit r := by
  have hs := h.toSound
  obtain ⟨g, g1, g2, g3⟩ := bloatless_eval h
  unfold Boolf.blightlessBoolf
  cases hc : f.isConstant
  · have hat := atoms_of_not_const h hc
    have hF := fullspots_ne_nil h hat
    obtain ⟨b, b1, b2, b3⟩ := blight_eval h hF
    rw [if_neg (by simp), b1]
    simp only [bind, Except.bind]
    by_cases heq : b.eq f = true
    · rw [if_pos heq, newTT_one]
      refine ⟨_, rfl, canon_const true, fun a => ?_⟩
      rw [eval_const]
      simp only [true_iff]
      obtain ⟨s, s1, s2, s3⟩ := follows_exists hF f.valency fun r => if oneside f.fullspots r then (f.fullspots.headD 0).testBit r else (spotOf f a).testBit r
      refine ⟨s, ?_, fun r hr ho => by rw [s3 r hr, if_neg (by simp [ho])]⟩
      obtain ⟨a', rfl⟩ := spotOf_onto hs s1
      show valB _ ∈ _
      rw [spot_mem hs, ← eval_of_eq heq, b3]
      exact ⟨s2, (fixed_iff_reps hF s2).2 fun r hr ho => by rw [s3 r hr, if_pos ho]⟩
    · rw [if_neg heq, blightlessAtomkeys_eq h g1, g1]
      simp only
      have hitem : (freeKeys f g).mapM (fun k : Nat => item f.atomvals k) = .ok ((freeKeys f g).map fun k => f.atomvals.getD k 0) := by
        apply mapM_ok
        intro k hk
        obtain ⟨x, hx, _⟩ := (mem_freeKeys hs).1 hk
        rw [item_ok hx, List.getD_eq_getElem?_getD, hx]; rfl
      rw [hitem]
      simp only
      have hmem : ∀ x, x ∈ (freeKeys f g).map (fun k => f.atomvals.getD k 0) ↔ ∃ k, f.atomvals[k]? = some x ∧ x ∈ g.atomvals ∧ oneside f.fullspots k = false := by
        intro x
        rw [List.mem_map]
        constructor
        · rintro ⟨k, hk, rfl⟩
          obtain ⟨x, hx, h2⟩ := (mem_freeKeys hs).1 hk
          refine ⟨k, ?_⟩
          rw [List.getD_eq_getElem?_getD, hx]
          exact ⟨rfl, h2⟩
        · rintro ⟨k, hx, h2⟩
          exact ⟨k, (mem_freeKeys hs).2 ⟨x, hx, h2⟩, by rw [List.getD_eq_getElem?_getD, hx]; rfl⟩
      have hasc : ((freeKeys f g).map fun k => f.atomvals.getD k 0).Pairwise (· < ·) := by
        rw [List.pairwise_map]
        refine List.Pairwise.imp_of_mem (R := (· < ·)) (fun {a b} ha hb hab => ?_) (List.pairwise_lt_range.filter _)
        obtain ⟨x, hx, _⟩ := (mem_freeKeys hs).1 ha
        obtain ⟨y, hy, _⟩ := (mem_freeKeys hs).1 hb
        simp only [List.getD_eq_getElem?_getD, hx, hy, Option.getD_some]
        exact getElem_lt h.asc hx hy hab
      obtain ⟨k, k1, k2, _, k4⟩ := filtrate_asc g2.toSound hasc (fun x hx => ((hmem x).1 hx).choose_spec.2.1)
      refine ⟨k, k1, k2, fun a => ?_⟩
      rw [k4]
      constructor
      · rintro ⟨a', h1, h2⟩
        have he : g.eval (fun x => if x ∈ g.atomvals then a' x else a x) = g.eval a' := by
          apply Boolf.eval_congr
          intro x hx
          rw [if_pos hx]
        rw [← he, g3] at h1
        obtain ⟨s, s1, s2⟩ := h1
        refine ⟨s, s1, fun r hr ho => ?_⟩
        obtain ⟨x, hx⟩ := atom_some hs (mem_reps.1 hr).1
        rw [s2 r hr, spotOf_testBit hx, spotOf_testBit hx]
        split
        · rename_i hxg
          exact h2 x ((hmem x).2 ⟨r, hx, hxg, ho⟩)
        · rfl
      · rintro ⟨s, s1, s2⟩
        obtain ⟨a', ha'⟩ := spotOf_onto hs (by rw [h.val]; exact fullspots_lt hs s1 : s < 2 ^ f.valency)
        refine ⟨a', (g3 a').2 ⟨s, s1, fun r _ => by rw [ha']⟩, fun x hx => ?_⟩
        obtain ⟨r, hr, hxg, ho⟩ := (hmem x).1 hx
        obtain ⟨r', hr', hx'⟩ := bloatless_atoms h g1 hxg
        have : r = r' := by
          rcases Nat.lt_trichotomy r r' with h1 | h1 | h1
          · have := getElem_lt h.asc hr hx' h1; omega
          · exact h1
          · have := getElem_lt h.asc hx' hr h1; omega
        subst this
        rw [← spotOf_testBit hr a', ← spotOf_testBit hr a, ha']
        exact s2 r hr' ho
  · refine ⟨f, by rw [if_pos rfl], h, fun a => ?_⟩
    have : f.bloatlessBoolf = .ok f := by unfold Boolf.bloatlessBoolf; rw [if_pos hc]
    rw [this] at g1; cases g1
    rw [g3, reps_const h hc]
    simp

theorem bloatless_blightless {f g k : Boolf} (h : Canon f) (hg : f.bloatlessBoolf = .ok g) (hk : f.blightlessBoolf = .ok k) (a : Nat → Bool) :
    g.eval a = true ↔ k.eval a = true ∧ ∀ r ∈ reps f.fullspots f.valency, oneside f.fullspots r = true → (spotOf f a).testBit r = (f.fullspots.headD 0).testBit r := by
  obtain ⟨g', g1, g2, g3⟩ := bloatless_eval h
  obtain ⟨k', k1, k2, k3⟩ := blightless_eval h
  rw [hg] at g1; cases g1
  rw [hk] at k1; cases k1
  rw [g3, k3]
  constructor
  · rintro ⟨s, s1, s2⟩
    exact ⟨⟨s, s1, fun r hr _ => s2 r hr⟩, fun r hr ho => by rw [← s2 r hr, (oneside_head ho s1).1]⟩
  · rintro ⟨⟨s, s1, s2⟩, h2⟩
    refine ⟨s, s1, fun r hr => ?_⟩
    cases ho : oneside f.fullspots r
    · exact s2 r hr ho
    · rw [h2 r hr ho, (oneside_head ho s1).1]

/-- the atoms of the blightless function -/
theorem mem_blightless {f g k : Boolf} (h : Canon f) (hg : f.bloatlessBoolf = .ok g) (hk : f.blightlessBoolf = .ok k) (x : Nat) :
    x ∈ k.atomvals ↔ ∃ r ∈ freeKeys f g, f.atomvals[r]? = some x := by
  have hs := h.toSound
  obtain ⟨g', g1, g2, g3⟩ := bloatless_eval h
  obtain ⟨k', k1, k2, k3⟩ := blightless_eval h
  rw [hg] at g1; cases g1
  rw [hk] at k1; cases k1
  cases hc : f.isConstant
  · have hF := fullspots_ne_nil h (atoms_of_not_const h hc)
    have hgk := bloatless_blightless h hg hk
    have hspot : ∀ (a : Nat → Bool) (b : Bool) (r : Nat), r < f.valency → f.atomvals[r]? ≠ some x → (spotOf f (upd a x b)).testBit r = (spotOf f a).testBit r := by
      intro a b r hr hne
      obtain ⟨y, hy⟩ := atom_some hs hr
      rw [spotOf_testBit hy, spotOf_testBit hy]
      unfold upd
      rw [if_neg]
      rintro rfl
      exact hne hy
    constructor
    · intro hx
      obtain ⟨a, ha⟩ := (k2.mem_iff x).1 hx
      -- the atom is representative and not onesided
      obtain ⟨r, hr, ho, hrx⟩ : ∃ r ∈ reps f.fullspots f.valency, oneside f.fullspots r = false ∧ f.atomvals[r]? = some x := by
        by_contra hc
        push Not at hc
        apply ha
        rw [Bool.eq_iff_iff, k3, k3]
        refine exists_congr fun s => and_congr_right fun _ => forall_congr' fun r => forall_congr' fun hr => forall_congr' fun ho => ?_
        rw [hspot _ _ r (mem_reps.1 hr).1 (hc r hr ho), hspot _ _ r (mem_reps.1 hr).1 (hc r hr ho)]
      refine ⟨r, (mem_freeKeys hs).2 ⟨x, hrx, ?_, ho⟩, hrx⟩
      -- the same assignment with the right values of onesided atoms
      obtain ⟨s0, hs0⟩ : ∃ a0 : Nat → Bool, ∀ q y : Nat, f.atomvals[q]? = some y → a0 y = (f.fullspots.headD 0).testBit q := by
        have hlt : f.fullspots.headD 0 < 2 ^ f.atomvals.length := fullspots_lt hs (headD_mem hF)
        obtain ⟨a0, _, h0⟩ := spot_assign hs hlt
        exact ⟨a0, h0⟩
      classical
      let a1 : Nat → Bool := fun y => if ∃ q, f.atomvals[q]? = some y ∧ oneside f.fullspots q = true then s0 y else a y
      have hinj : ∀ q q' y : Nat, f.atomvals[q]? = some y → f.atomvals[q']? = some y → q = q' := by
        intro q q' y h1 h2
        rcases Nat.lt_trichotomy q q' with h3 | h3 | h3
        · have := getElem_lt h.asc h1 h2 h3; omega
        · exact h3
        · have := getElem_lt h.asc h2 h1 h3; omega
      have hk1 : ∀ b, k.eval (upd a1 x b) = k.eval (upd a x b) := by
        intro b
        rw [Bool.eq_iff_iff, k3, k3]
        refine exists_congr fun s => and_congr_right fun _ => forall_congr' fun q => forall_congr' fun hq => forall_congr' fun hoq => ?_
        obtain ⟨y, hy⟩ := atom_some hs (mem_reps.1 hq).1
        rw [spotOf_testBit hy, spotOf_testBit hy]
        have : upd a1 x b y = upd a x b y := by
          unfold upd
          by_cases hyx : y = x
          · rw [if_pos hyx, if_pos hyx]
          · rw [if_neg hyx, if_neg hyx]
            show (if _ then _ else _) = _
            rw [if_neg]
            rintro ⟨q', h1, h2⟩
            rw [← hinj q q' y hy h1, hoq] at h2; cases h2
        rw [this]
      have hg1 : ∀ b, g.eval (upd a1 x b) = k.eval (upd a1 x b) := by
        intro b
        rw [Bool.eq_iff_iff, hgk]
        refine and_iff_left fun q hq hoq => ?_
        obtain ⟨y, hy⟩ := atom_some hs (mem_reps.1 hq).1
        rw [spotOf_testBit hy]
        unfold upd
        rw [if_neg]
        · show (if _ then _ else _) = _
          rw [if_pos ⟨q, hy, hoq⟩, hs0 q y hy]
        · rintro rfl
          rw [hinj q r y hy hrx, ho] at hoq; cases hoq
      refine (g2.mem_iff x).2 ⟨a1, ?_⟩
      rw [hg1, hg1, hk1, hk1]
      exact ha
    · rintro ⟨r, hr, hrx⟩
      obtain ⟨y, hy, hyg, ho⟩ := (mem_freeKeys hs).1 hr
      rw [hrx] at hy; cases hy
      obtain ⟨a, ha⟩ := (g2.mem_iff x).1 hyg
      refine (k2.mem_iff x).2 ⟨a, fun he => ha ?_⟩
      rw [Bool.eq_iff_iff, hgk, hgk, he]
      refine and_congr_right fun _ => forall_congr' fun q => forall_congr' fun hq => forall_congr' fun hoq => ?_
      have hne : f.atomvals[q]? ≠ some x := by
        intro hqx
        have : q = r := by
          rcases Nat.lt_trichotomy q r with h3 | h3 | h3
          · have := getElem_lt h.asc hqx hrx h3; omega
          · exact h3
          · have := getElem_lt h.asc hrx hqx h3; omega
        rw [this, ho] at hoq; cases hoq
      rw [hspot _ _ q (mem_reps.1 hq).1 hne, hspot _ _ q (mem_reps.1 hq).1 hne]
  · have : f.blightlessBoolf = .ok f := by unfold Boolf.blightlessBoolf; rw [if_pos hc]
    rw [this] at hk; cases hk
    rw [atoms_of_const h hc]
    simp

end Verif.BF
