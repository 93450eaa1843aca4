import Verif.Boolf.Props21

/-!
# C84: bloatless functions
-/

namespace Verif.BF
open Verif.Py Verif.BV Verif.P Verif.W Verif.SP Verif.SPC
open Verif.A hiding Mat

/-- wherever the function is true, the two atoms are equal -/
def Same (f : Boolf) (x y : Nat) : Prop := ∀ key : Nat, f.getItem key = .ok true → key.testBit x = key.testBit y

/-- wherever the function is true, the two atoms are different -/
def Opposite (f : Boolf) (x y : Nat) : Prop := ∀ key : Nat, f.getItem key = .ok true → key.testBit x ≠ key.testBit y

theorem same_iff {f : Boolf} (h : Sound f) {a b x y : Nat} (ha : f.atomvals[a]? = some x) (hb : f.atomvals[b]? = some y) :
    (EqOn f.fullspots a b ↔ Same f x y) ∧ (NeOn f.fullspots a b ↔ Opposite f x y) := eqOn_key h ha hb

theorem related_same {f : Boolf} (h : Sound f) {a b x y : Nat} (ha : f.atomvals[a]? = some x) (hb : f.atomvals[b]? = some y) :
    related f.fullspots a b = true ↔ Same f x y ∨ Opposite f x y := by
  rw [related_iff, (same_iff h ha hb).1, (same_iff h ha hb).2]

theorem reps_const {f : Boolf} (h : Canon f) (hc : f.isConstant = true) : reps f.fullspots f.valency = [] := by
  rw [h.val, atoms_of_const h hc]; rfl

theorem undeflated_all {f : Boolf} (h : Canon f) : f.bloatlessAtomkeysUndeflated = .ok ((reps f.fullspots f.valency).map Int.ofNat) := by
  cases hc : f.isConstant
  · exact undeflated_eq h hc
  · obtain ⟨s, s1, _⟩ := bloat_reach h
    unfold Boolf.bloatlessAtomkeysUndeflated Boolf.eqBlocksAndPrefSide
    rw [if_pos hc, s1, reps_const h hc]
    rfl

theorem eqBlocks_all {f : Boolf} (h : Canon f) :
    f.eqBlocksAndPrefSide = .ok ((reps f.fullspots f.valency).map (fun r => (cls f.fullspots f.valency r).map Int.ofNat),
      (reps f.fullspots f.valency).map (prefK f.fullspots f.valency)) := by
  cases hc : f.isConstant
  · exact eqBlocks_spec h hc
  · unfold Boolf.eqBlocksAndPrefSide
    rw [if_pos hc, reps_const h hc]
    rfl

/-- **C84.** `bloatless_atomkeys_undeflated` is the ascending list of the positions of representative atoms.  Each atom is tied to
exactly one of them (equal to it, or complementary to it, wherever the function is true).  The representative is the first of the
atoms tied to each other that is true at the first full spot, or just the first one, if none of them is. -/
theorem C84_representatives (f : Boolf) (hf : Reach f) :
    ∃ l : List Nat, f.bloatlessAtomkeysUndeflated = .ok (l.map Int.ofNat) ∧ l.Pairwise (· < ·) ∧ (∀ r ∈ l, r < f.valency) ∧
      (∀ a x : Nat, f.atomvals[a]? = some x → ∃ r ∈ l, ∃ z, f.atomvals[r]? = some z ∧ (Same f x z ∨ Opposite f x z) ∧
        ∀ r' ∈ l, ∀ z', f.atomvals[r']? = some z' → Same f x z' ∨ Opposite f x z' → r' = r) ∧
      ∀ s, f.fullspots.head? = some s → ∀ r ∈ l, ∀ b y z : Nat, f.atomvals[r]? = some z → f.atomvals[b]? = some y → Same f z y ∨ Opposite f z y →
        (s.testBit r = true → s.testBit b = true → r ≤ b) ∧ (s.testBit r = false → s.testBit b = false ∧ r ≤ b) := by
  have h := hf.canon
  have hs := h.toSound
  have hlt : ∀ {a x : Nat}, f.atomvals[a]? = some x → a < f.valency := fun ha => by rw [h.val]; exact getElem?_some_lt ha
  refine ⟨reps f.fullspots f.valency, undeflated_all h, reps_asc _ _, fun r hr => (mem_reps.1 hr).1, fun a x ha => ?_, fun s hh r hr b y z hz hb hrel => ?_⟩
  · obtain ⟨z, hz⟩ := atom_some hs (repK_lt (F := f.fullspots) (hlt ha))
    refine ⟨_, repK_mem (hlt ha), z, hz, (related_same hs ha hz).1 (repK_related (hlt ha)), fun r' hr' z' hz' hrel => ?_⟩
    rw [repK_congr ((related_same hs ha hz').2 hrel), (mem_reps.1 hr').2]
  · obtain ⟨r1, r2⟩ := mem_reps.1 hr
    have hbm : b ∈ cls f.fullspots f.valency r := mem_cls.2 ⟨hlt hb, (related_same hs hz hb).2 hrel⟩
    obtain ⟨_, q⟩ := repK_spec (F := f.fullspots) r1
    have hd : f.fullspots.headD 0 = s := by rw [List.headD_eq_head?_getD, hh]; rfl
    rw [r2, hd] at q
    rcases q with ⟨q1, q2⟩ | ⟨q1, q2⟩
    · exact ⟨fun _ h2 => q2 b hbm h2, fun h1 => absurd (q1.symm.trans h1) (by simp)⟩
    · exact ⟨fun _ _ => q2 b hbm, fun _ => ⟨q1 b hbm, q2 b hbm⟩⟩

/-- **C84.** `splits_equality_blocks` has, for each representative, the ascending list of the positions of the atoms tied to it, and
`splits_preferred_side` has the representative itself where two of these atoms are complementary, and `None` elsewhere. -/
theorem C84_blocks (f : Boolf) (hf : Reach f) :
    ∃ (l : List Nat) (blocks : List (List Int)) (preferred : List (Option Int)), f.bloatlessAtomkeysUndeflated = .ok (l.map Int.ofNat) ∧ f.eqBlocksAndPrefSide = .ok (blocks, preferred) ∧
      f.numberOfDistinctSplits = .ok l.length ∧ blocks.length = l.length ∧ preferred.length = l.length ∧
      ∀ i r z : Nat, l[i]? = some r → f.atomvals[r]? = some z →
        (∃ B : List Nat, blocks[i]? = some (B.map Int.ofNat) ∧ B.Pairwise (· < ·) ∧
          ∀ b, b ∈ B ↔ ∃ y, f.atomvals[b]? = some y ∧ (Same f z y ∨ Opposite f z y)) ∧
        ((∃ y ∈ f.atomvals, Opposite f z y) → preferred[i]? = some (some (r : Int))) ∧
        ((∀ y ∈ f.atomvals, ¬ Opposite f z y) → preferred[i]? = some none) := by
  have h := hf.canon
  have hs := h.toSound
  have hlt : ∀ {a x : Nat}, f.atomvals[a]? = some x → a < f.valency := fun ha => by rw [h.val]; exact getElem?_some_lt ha
  refine ⟨reps f.fullspots f.valency, _, _, undeflated_all h, eqBlocks_all h, ?_, by simp, by simp, fun i r z hi hz => ?_⟩
  · unfold Boolf.numberOfDistinctSplits
    rw [eqBlocks_all h]
    simp [bind, Except.bind, pure, Except.pure]
  · have hF := spots_of_atom h hz
    obtain ⟨r1, r2⟩ := mem_reps.1 (List.mem_of_getElem? hi)
    have hmix : mixed f.fullspots f.valency r = true ↔ ∃ y ∈ f.atomvals, Opposite f z y := by
      rw [mixed_iff]
      have hm := (head_le (cls_asc f.fullspots f.valency r) (self_cls r1)).1
      set m := (cls f.fullspots f.valency r).headD 0
      have hrm := (mem_cls.1 hm).2
      constructor
      · rintro ⟨b, hb, hne⟩
        obtain ⟨b1, b2⟩ := mem_cls.1 hb
        by_cases hv : (f.fullspots.headD 0).testBit r = (f.fullspots.headD 0).testBit b
        · obtain ⟨y, hy⟩ := atom_some hs (mem_cls.1 hm).1
          exact ⟨y, List.mem_of_getElem? hy, (same_iff hs hz hy).2.1 ((eqOn_iff_head hF hrm).2.2 (by rw [hv]; exact hne))⟩
        · obtain ⟨y, hy⟩ := atom_some hs b1
          exact ⟨y, List.mem_of_getElem? hy, (same_iff hs hz hy).2.1 ((eqOn_iff_head hF b2).2.2 hv)⟩
      · rintro ⟨y, hy, ho⟩
        obtain ⟨b, hb⟩ := List.mem_iff_getElem?.1 hy
        have hn := (same_iff hs hz hb).2.2 ho
        have hrel : related f.fullspots r b = true := related_iff.2 (Or.inr hn)
        have hv := (eqOn_iff_head hF hrel).2.1 hn
        by_cases hbm : (f.fullspots.headD 0).testBit b = (f.fullspots.headD 0).testBit m
        · exact ⟨r, self_cls r1, fun he => hv (he.trans hbm.symm)⟩
        · exact ⟨b, mem_cls.2 ⟨hlt hb, hrel⟩, hbm⟩
    refine ⟨⟨cls f.fullspots f.valency r, by rw [List.getElem?_map, hi]; rfl, cls_asc _ _ _, fun b => ?_⟩, fun hex => ?_, fun hall => ?_⟩
    · rw [mem_cls]
      constructor
      · rintro ⟨b1, b2⟩
        obtain ⟨y, hy⟩ := atom_some hs b1
        exact ⟨y, hy, (related_same hs hz hy).1 b2⟩
      · rintro ⟨y, hy, hr⟩
        exact ⟨hlt hy, (related_same hs hz hy).2 hr⟩
    · rw [List.getElem?_map, hi, Option.map_some]
      unfold prefK
      rw [if_pos (hmix.2 hex), r2]
    · rw [List.getElem?_map, hi, Option.map_some]
      unfold prefK
      rw [if_neg]
      intro hm
      obtain ⟨y, hy, ho⟩ := hmix.1 hm
      exact hall y hy ho

/-- the digits of the number obey what is known about pairs of atoms -/
def Obeys (f : Boolf) (s : Nat) : Prop := ∀ a b x y : Nat, f.atomvals[a]? = some x → f.atomvals[b]? = some y →
  (Same f x y → s.testBit a = s.testBit b) ∧ (Opposite f x y → s.testBit a ≠ s.testBit b)

theorem obeys_iff {f : Boolf} (h : Sound f) (s : Nat) : Follows f.fullspots f.valency s ↔ Obeys f s := by
  have hlt : ∀ {a x : Nat}, f.atomvals[a]? = some x → a < f.valency := fun ha => by rw [h.val]; exact getElem?_some_lt ha
  constructor
  · intro hfol a b x y ha hb
    rw [← (same_iff h ha hb).1, ← (same_iff h ha hb).2]
    exact hfol a b (hlt ha) (hlt hb)
  · intro hob a b ha hb
    obtain ⟨x, hx⟩ := atom_some h ha
    obtain ⟨y, hy⟩ := atom_some h hb
    rw [(same_iff h hx hy).1, (same_iff h hx hy).2]
    exact hob a b x y hx hy

/-- **C84.** `bloatless_spotint` of a function with atoms: a number that is no spot raises `TooBigError`, one whose digits contradict the
bloat raises `BloatMismatchError`, and for any other one digit `i` of the result is the digit of the representative `i`. -/
theorem C84_bloatless_spotint (f : Boolf) (hf : Reach f) (hc : f.isConstant = false) (s : Nat) :
    (2 ^ f.valency ≤ s → f.bloatlessSpotint s = .error .tooBig) ∧
    (s < 2 ^ f.valency → ¬ Obeys f s → f.bloatlessSpotint s = .error .bloatMismatch) ∧
    (s < 2 ^ f.valency → Obeys f s → ∃ (r : Nat) (l : List Nat), f.bloatlessSpotint s = .ok r ∧ f.bloatlessAtomkeysUndeflated = .ok (l.map Int.ofNat) ∧
      r < 2 ^ l.length ∧ ∀ i k : Nat, l[i]? = some k → r.testBit i = s.testBit k) := by
  have h := hf.canon
  obtain ⟨h1, h2, h3⟩ := bloatlessSpotint_spec h hc s
  rw [obeys_iff h.toSound] at h2 h3
  refine ⟨h1, h2, fun hs ho => ⟨_, _, h3 hs ho, undeflated_eq h hc, valB_map_lt _ _, fun i k hi => ?_⟩⟩
  rw [testBit_valB_map, hi]; rfl

/-- **C84.** All full spots are accepted, and different ones have different results. -/
theorem C84_spotint_of_fullspots (f : Boolf) (hf : Reach f) (hc : f.isConstant = false) :
    (∀ s ∈ f.fullspots, ∃ r, f.bloatlessSpotint s = .ok r) ∧
    ∀ s t r : Nat, f.bloatlessSpotint s = .ok r → f.bloatlessSpotint t = .ok r → s = t := by
  have h := hf.canon
  refine ⟨fun s hs => ⟨_, (bloatlessSpotint_spec h hc s).2.2 (by rw [h.val]; exact fullspots_lt h.toSound hs) (follows_spot _ hs)⟩, fun s t r e1 e2 => ?_⟩
  have hok : ∀ s, f.bloatlessSpotint s = .ok r → s < 2 ^ f.valency ∧ Follows f.fullspots f.valency s ∧ r = valB ((reps f.fullspots f.valency).map s.testBit) := by
    intro s e
    obtain ⟨h1, h2, h3⟩ := bloatlessSpotint_spec h hc s
    by_cases hs : s < 2 ^ f.valency
    · by_cases hfol : Follows f.fullspots f.valency s
      · rw [h3 hs hfol] at e; exact ⟨hs, hfol, (Except.ok.inj e).symm⟩
      · rw [h2 hs hfol] at e; cases e
    · rw [h1 (by omega)] at e; cases e
  obtain ⟨s1, s2, s3⟩ := hok s e1
  obtain ⟨t1, t2, t3⟩ := hok t e2
  refine spot_ext s1 t1 fun k hk => follows_ext s2 t2 (fun q hq => ?_) hk
  exact List.map_inj_left.1 (valB_inj (by simp) (s3.symm.trans t3)) q hq

/-- **C84.** For the constants `bloatless_spotint` is their value, whatever the argument. -/
theorem C84_spotint_constant (b : Bool) (s : Nat) : (setConstant b).bloatlessSpotint s = .ok b.toNat := by cases b <;> rfl

theorem getItem_spot {f : Boolf} (h : Sound f) (key : Nat) : f.getItem key = .ok true ↔ spotOf f key.testBit ∈ f.fullspots := by
  rw [getItem_true h]; exact (spot_mem h _).symm

/-- **C84.** `bloatless_boolf` is always computed.  It is true at a number iff the function is true at some number that agrees with the
first one at all representative atoms. -/
theorem C84_bloatless_boolf (f : Boolf) (hf : Reach f) :
    ∃ (g : Boolf) (l : List Nat), f.bloatlessBoolf = .ok g ∧ Reach g ∧ f.bloatlessAtomkeysUndeflated = .ok (l.map Int.ofNat) ∧
      (∀ x ∈ g.atomvals, ∃ r ∈ l, f.atomvals[r]? = some x) ∧
      ∀ key : Nat, g.getItem key = .ok true ↔
        ∃ key' : Nat, f.getItem key' = .ok true ∧ ∀ r ∈ l, ∀ x : Nat, f.atomvals[r]? = some x → key'.testBit x = key.testBit x := by
  have h := hf.canon
  have hs := h.toSound
  obtain ⟨g, g1, g2, g3⟩ := bloatless_eval h
  refine ⟨g, reps f.fullspots f.valency, g1, g2.reach, undeflated_all h, fun x hx => ?_, fun key => ?_⟩
  · by_contra hc
    push Not at hc
    obtain ⟨a, ha⟩ := (g2.mem_iff x).1 hx
    apply ha
    rw [Bool.eq_iff_iff, g3, g3]
    have : ∀ b, ∀ r ∈ reps f.fullspots f.valency, (spotOf f (upd a x b)).testBit r = (spotOf f a).testBit r := by
      intro b r hr
      obtain ⟨y, hy⟩ := atom_some hs (mem_reps.1 hr).1
      rw [spotOf_testBit hy, spotOf_testBit hy]
      unfold upd
      rw [if_neg]
      rintro rfl
      exact hc r hr hy
    refine exists_congr fun s => and_congr_right fun _ => forall_congr' fun r => forall_congr' fun hr => ?_
    rw [this _ r hr, this _ r hr]
  · rw [getItem_true g2.toSound, g3]
    constructor
    · rintro ⟨s, s1, s2⟩
      obtain ⟨key', k1, k2⟩ := spot_key hs s1
      exact ⟨key', k1, fun r hr x hx => by rw [k2 r x hx, s2 r hr, spotOf_testBit hx]⟩
    · rintro ⟨key', k1, k2⟩
      obtain ⟨s, s1, s2⟩ := key_spot hs k1
      refine ⟨s, s1, fun r hr => ?_⟩
      obtain ⟨x, hx⟩ := atom_some hs (mem_reps.1 hr).1
      rw [s2 r x hx, k2 r hr x hx, spotOf_testBit hx]

/-- **C84.** The function is the intersection of `bloatless_boolf` and `bloat_boolf`. -/
theorem C84_intersection (f : Boolf) (hf : Reach f) : ∃ g b, f.bloatlessBoolf = .ok g ∧ f.bloatBoolf = .ok b ∧ g.and b = .ok f := by
  have h := hf.canon
  have hs := h.toSound
  obtain ⟨g, g1, g2, g3⟩ := bloatless_eval h
  cases hc : f.isConstant
  · obtain ⟨b, b1, b2, b3⟩ := bloat_eval h (fullspots_ne_nil h (atoms_of_not_const h hc))
    obtain ⟨k, k1, k2, k3⟩ := and_spec g2.toSound b2.toSound
    refine ⟨g, b, g1, b1, ?_⟩
    rw [k1, k2.ext h]
    intro a
    rw [k3, Bool.eq_iff_iff, Bool.and_eq_true, g3, b3, ← spot_mem hs]
    constructor
    · rintro ⟨⟨s, s1, s2⟩, h2⟩
      have : spotOf f a = s := spot_ext (spotOf_lt hs a) (by rw [h.val]; exact fullspots_lt hs s1) fun k hk =>
        (follows_ext (follows_spot _ s1) h2 s2 hk).symm
      show spotOf f a ∈ _
      rw [this]; exact s1
    · intro h1
      exact ⟨⟨_, h1, fun _ _ => rfl⟩, follows_spot _ h1⟩
  · have hg : f.bloatlessBoolf = .ok f := by unfold Boolf.bloatlessBoolf; rw [if_pos hc]
    obtain ⟨b, b1, b2, b3⟩ := bloatBoolf_spec h
    obtain ⟨k, k1, k2, k3⟩ := and_spec hs b2.toSound
    refine ⟨f, b, hg, b1, ?_⟩
    rw [k1, k2.ext h]
    intro a
    have hv : f.valency = 0 := by rw [h.val, atoms_of_const h hc]; rfl
    have : b.eval a = true := by
      rw [b3, hv]
      intro g hg; cases hg
    rw [k3, this, Bool.and_true]

/-- **C84.** `bloatless_boolf` is bloatless, and a function is bloatless iff it is its own `bloatless_boolf`. -/
theorem C84_is_bloatless (f : Boolf) (hf : Reach f) : ∃ g, f.bloatlessBoolf = .ok g ∧ g.isBloatless = .ok true ∧ g.bloatlessBoolf = .ok g ∧
    (f.isBloatless = .ok true ↔ g = f) := by
  have key1 : ∀ f : Boolf, Reach f → f.isBloatless = .ok true → f.bloatlessBoolf = .ok f := by
    intro f hf hb
    have h := hf.canon
    obtain ⟨g, l, g1, g2, g3, g4, g5⟩ := C84_bloatless_boolf f hf
    obtain ⟨b, c, b1, _, _, b4, _⟩ := C83_bloatless_blotless f hf
    rw [hb] at b1; cases b1
    have hall := b4.1 rfl
    obtain ⟨l', e1, _, e3, e4, _⟩ := C84_representatives f hf
    obtain rfl : l = l' := by
      rw [g3] at e1
      exact List.map_injective_iff.2 (fun a b h => by simpa using h) (Except.ok.inj e1)
    have hl : ∀ a x : Nat, f.atomvals[a]? = some x → a ∈ l := by
      intro a x ha
      obtain ⟨r, hr, z, hz, ht, _⟩ := e4 a x ha
      by_cases hxz : x = z
      · subst hxz
        have : a = r := by
          rcases Nat.lt_trichotomy a r with h1 | h1 | h1
          · have := getElem_lt h.asc ha hz h1; omega
          · exact h1
          · have := getElem_lt h.asc hz ha h1; omega
        rw [this]; exact hr
      · exfalso
        obtain ⟨⟨k, k1, k2⟩, ⟨k', k3, k4⟩⟩ := hall x (List.mem_of_getElem? ha) z (List.mem_of_getElem? hz) hxz
        rcases ht with ht | ht
        · exact k4 (ht k' k3)
        · exact ht k k1 k2
    rw [g1, g2.canon.ext_key h]
    intro key
    have : g.getItem key = .ok true ↔ f.getItem key = .ok true := by
      rw [g5]
      constructor
      · rintro ⟨key', k1, k2⟩
        rw [getItem_true h.toSound] at k1 ⊢
        rw [← k1]
        apply Boolf.eval_congr
        intro x hx
        obtain ⟨a, ha⟩ := List.mem_iff_getElem?.1 hx
        exact (k2 a (hl a x ha) x ha).symm
      · intro hk; exact ⟨key, hk, fun _ _ _ _ => rfl⟩
    rw [getItem_true g2.canon.toSound, getItem_true h.toSound, ← Bool.eq_iff_iff] at this
    rw [getItem_eq g2.canon.toSound, getItem_eq h.toSound, this]
  obtain ⟨g, l, g1, g2, g3, g4, g5⟩ := C84_bloatless_boolf f hf
  have hg : g.isBloatless = .ok true := by
    obtain ⟨b, c, b1, _, _, b4, _⟩ := C83_bloatless_blotless g g2
    rw [b1]
    congr 1
    rw [b4]
    intro x hx y hy hxy
    obtain ⟨r, hr, hrx⟩ := g4 x hx
    obtain ⟨t, ht, hty⟩ := g4 y hy
    obtain rfl : l = reps f.fullspots f.valency := by
      rw [undeflated_all hf.canon] at g3
      exact (List.map_injective_iff.2 (fun a b h => by simpa using h) (Except.ok.inj g3)).symm
    have hrt : r ≠ t := by rintro rfl; rw [hrx] at hty; exact hxy (Option.some.inj hty)
    have hun := reps_unrelated hr ht hrt
    rw [← Bool.not_eq_true, related_same hf.canon.toSound hrx hty, not_or] at hun
    unfold Same Opposite at hun
    push Not at hun
    obtain ⟨⟨k, k1, k2⟩, ⟨k', k3, k4⟩⟩ := hun
    exact ⟨⟨k', (g5 k').2 ⟨k', k3, fun _ _ _ _ => rfl⟩, k4⟩, ⟨k, (g5 k).2 ⟨k, k1, fun _ _ _ _ => rfl⟩, k2⟩⟩
  refine ⟨g, g1, hg, key1 g g2 hg, ?_⟩
  constructor
  · intro h1
    have := key1 f hf h1
    rw [g1] at this
    exact Except.ok.inj this
  · rintro rfl; exact hg

end Verif.BF
