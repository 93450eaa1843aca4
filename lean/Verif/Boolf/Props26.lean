import Verif.Boolf.Model7
import Verif.Boolf.Props25

/-!
# C87: functions without gaps
-/

namespace Verif.BF
open Verif.Py Verif.BV Verif.P Verif.W Verif.SP Verif.SPC
open Verif.A hiding Mat

/-- the digits of the truth table for two atoms -/
def chars (v : List Bool) : List Char := v.map fun b => if b then '1' else '0'

theorem gapString_eq {F : List Nat} {a b : Nat} (h : countSplitRegions (splitOf F a) (splitOf F b) = 3) :
    gapString (splitOf F a) (splitOf F b) = .ok (chars [has F a b false false, has F a b true false, has F a b false true, has F a b true true]) := by
  rw [count_has] at h
  have key : ∀ l : List Nat, (l = []) = (nonEmpty l = false) := by intro l; unfold nonEmpty; simp
  unfold gapString chars
  obtain ⟨h1, h2, h3, h4⟩ := has_inter F a b
  simp only [key, h1, h2, h3, h4]
  revert h
  cases has F a b true true <;> cases has F a b true false <;> cases has F a b false true <;> cases has F a b false false <;> decide

theorem pair_table {x y : Nat} (hxy : x < y) (v : List Bool) (hv : v.length = 4) :
    ∃ g, newTT (.str (chars v)) (some [(x : Int), (y : Int)]) = .ok g ∧ Canon g ∧ ∀ a : Nat → Bool, g.eval a = v.getD (valB [a x, a y]) false := by
  obtain ⟨g, g1, g2, g3⟩ := newTT_list (v := v) (A := [x, y]) (by simp [hxy]) (by rw [hv]; rfl)
  have h2 := C64_formats v (some [(x : Int), (y : Int)]) false (chars v) (by
    unfold chars
    rw [List.filter_eq_self]
    intro c hc
    rw [List.mem_map] at hc
    obtain ⟨b, _, rfl⟩ := hc
    cases b <;> decide)
  refine ⟨g, ?_, g2, fun a => ?_⟩
  · rw [h2.2.1, ← h2.1]; exact g1
  · rw [g3]; rfl

theorem gapLoop_spec {f : Boolf} (h : Canon f) (l : List (Nat × Nat)) (g : Boolf) (hg : Canon g)
    (hl : ∀ p ∈ l, p.1 < p.2 ∧ p.2 < f.valency ∧ countSplitRegions (splitOf f.fullspots p.1) (splitOf f.fullspots p.2) = 3) :
    ∃ k, gapLoop f ((List.range f.valency).map (splitOf f.fullspots)) l g = .ok k ∧ Canon k ∧
      ∀ a : Nat → Bool, k.eval a = true ↔ g.eval a = true ∧
        ∀ p ∈ l, has f.fullspots p.1 p.2 ((spotOf f a).testBit p.1) ((spotOf f a).testBit p.2) = true := by
  induction l generalizing g with
  | nil => exact ⟨g, rfl, hg, fun a => by simp⟩
  | cons p l ih =>
    obtain ⟨i, j⟩ := p
    obtain ⟨h1, h2, h3⟩ := hl (i, j) (by simp)
    simp only at h1 h2 h3
    obtain ⟨x, hx⟩ := atom_some h.toSound (show i < f.valency by omega)
    obtain ⟨y, hy⟩ := atom_some h.toSound h2
    obtain ⟨q, q1, q2, q3⟩ := pair_table (getElem_lt h.asc hx hy h1)
      [has f.fullspots i j false false, has f.fullspots i j true false, has f.fullspots i j false true, has f.fullspots i j true true] rfl
    obtain ⟨r, r1, r2, r3⟩ := and_spec hg.toSound q2.toSound
    obtain ⟨k, k1, k2, k3⟩ := ih r r2 (fun p hp => hl p (by simp [hp]))
    refine ⟨k, ?_, k2, fun a => ?_⟩
    · unfold gapLoop
      rw [item_ok hx, item_ok hy, item_splits _ (show i < f.valency by omega), item_splits _ h2]
      simp only [bind, Except.bind]
      rw [gapString_eq h3]
      simp only
      rw [q1]
      simp only
      rw [r1]
      exact k1
    · rw [k3, r3, q3, Bool.and_eq_true, List.forall_mem_cons, and_assoc]
      simp only
      rw [spotOf_testBit hx, spotOf_testBit hy]
      have : ∀ p q : Bool, [has f.fullspots i j false false, has f.fullspots i j true false, has f.fullspots i j false true, has f.fullspots i j true true].getD (valB [p, q]) false =
          has f.fullspots i j p q := by
        intro p q
        cases p <;> cases q <;> rfl
      rw [this]

theorem threeOverlaps_eq {f : Boolf} (h : Sound f) : f.splitPairsWith3Overlaps =
    .ok ((pairsBelow f.valency).filter fun p => decide (countSplitRegions (splitOf f.fullspots p.1) (splitOf f.fullspots p.2) = 3)) := by
  unfold Boolf.splitPairsWith3Overlaps
  rw [splitsOverlapCounts_eq h]
  simp only [bind, Except.bind, pure, Except.pure]
  congr 1
  rw [List.filter_map, List.map_map]
  exact List.map_id _

/-- two atoms of a blightless function have at least three of the four pairs of values -/
theorem count_blightless {F : List Nat} {a b : Nat} (hr : related F a b = false) (ha : oneside F a = false) (hb : oneside F b = false) :
    countSplitRegions (splitOf F a) (splitOf F b) = 3 ∨ countSplitRegions (splitOf F a) (splitOf F b) = 4 := by
  rw [count_has]
  unfold oneside at ha hb
  rw [has1_left F a b, has1_left F a b] at ha
  rw [has1_right F a b, has1_right F a b] at hb
  unfold related at hr
  revert hr ha hb
  cases has F a b true true <;> cases has F a b true false <;> cases has F a b false true <;> cases has F a b false false <;> decide

theorem count_four {F : List Nat} {a b : Nat} (h : countSplitRegions (splitOf F a) (splitOf F b) = 4) (p q : Bool) : has F a b p q = true := by
  rw [count_has] at h
  revert h
  cases p <;> cases q <;>
  cases has F a b true true <;> cases has F a b true false <;> cases has F a b false true <;> cases has F a b false false <;> decide

theorem blightless_iff {f : Boolf} (h : Canon f) : ∃ e, f.isBlightless = .ok e ∧ (e = true ↔
    (∀ a b, a < b → b < f.valency → related f.fullspots a b = false) ∧ ∀ a < f.valency, oneside f.fullspots a = false) := by
  have hs := h.toSound
  obtain ⟨b, c, _, _, b3, b4, b5⟩ := C83_bloatless_blotless f h.reach
  refine ⟨_, b3, ?_⟩
  rw [Bool.and_eq_true, b4, b5]
  refine and_congr ?_ ?_
  · constructor
    · intro hall i j hij hj
      obtain ⟨x, hx⟩ := atom_some hs (show i < f.valency by omega)
      obtain ⟨y, hy⟩ := atom_some hs hj
      obtain ⟨⟨k, k1, k2⟩, ⟨k', k3, k4⟩⟩ := hall x (List.mem_of_getElem? hx) y (List.mem_of_getElem? hy) (Nat.ne_of_lt (getElem_lt h.asc hx hy hij))
      rw [← Bool.not_eq_true, related_key hs hx hy]
      rintro (h1 | h1)
      · exact k4 (h1 k' k3)
      · exact h1 k k1 k2
    · intro hall x hx y hy hxy
      obtain ⟨i, hi⟩ := List.getElem?_of_mem hx
      obtain ⟨j, hj⟩ := List.getElem?_of_mem hy
      have hlt : ∀ {a x : Nat}, f.atomvals[a]? = some x → a < f.valency := fun ha => by rw [h.val]; exact getElem?_some_lt ha
      have hij : i ≠ j := by rintro rfl; rw [hi] at hj; exact hxy (Option.some.inj hj)
      have : related f.fullspots i j = false := by
        rcases Nat.lt_or_gt_of_ne hij with h1 | h1
        · exact hall i j h1 (hlt hj)
        · have := hall j i h1 (hlt hi)
          rw [← Bool.not_eq_true] at this ⊢
          exact fun h2 => this (related_symm h2)
      rw [← Bool.not_eq_true, related_key hs hi hj] at this
      push Not at this
      obtain ⟨⟨k, k1, k2⟩, ⟨k', k3, k4⟩⟩ := this
      exact ⟨⟨k', k3, k4⟩, ⟨k, k1, k2⟩⟩
  · constructor
    · intro hall i hi
      obtain ⟨x, hx⟩ := atom_some hs hi
      obtain ⟨⟨k, k1, k2⟩, ⟨k', k3, k4⟩⟩ := hall x (List.mem_of_getElem? hx)
      rw [← Bool.not_eq_true, oneside_key hs hx]
      rintro (h1 | h1)
      · rw [h1 k' k3] at k4; cases k4
      · rw [h1 k k1] at k2; cases k2
    · intro hall x hx
      obtain ⟨i, hi⟩ := List.getElem?_of_mem hx
      have := hall i (by rw [h.val]; exact getElem?_some_lt hi)
      rw [← Bool.not_eq_true, oneside_key hs hi] at this
      push Not at this
      obtain ⟨⟨k, k1, k2⟩, ⟨k', k3, k4⟩⟩ := this
      exact ⟨⟨k', k3, by simpa using k4⟩, ⟨k, k1, by simpa using k2⟩⟩

theorem gapless_eval {f : Boolf} (h : Canon f) (hb : f.isBlightless = .ok true) : ∃ g, f.gaplessBoolf = .ok g ∧ Canon g ∧
    ∀ a : Nat → Bool, g.eval a = true ↔ ∀ i j, i < j → j < f.valency → has f.fullspots i j ((spotOf f a).testBit i) ((spotOf f a).testBit j) = true := by
  have hs := h.toSound
  obtain ⟨e, e1, e2⟩ := blightless_iff h
  rw [hb] at e1; cases e1
  obtain ⟨hr, ho⟩ := e2.1 rfl
  obtain ⟨g, g1, g2, g3⟩ := gapLoop_spec h
    ((pairsBelow f.valency).filter fun p => decide (countSplitRegions (splitOf f.fullspots p.1) (splitOf f.fullspots p.2) = 3)) (setConstant true) (canon_const true) (by
      rintro ⟨i, j⟩ hp
      rw [List.mem_filter, mem_pairsBelow, decide_eq_true_eq] at hp
      exact ⟨hp.1.1, hp.1.2, hp.2⟩)
  have g4 : ∀ a : Nat → Bool, g.eval a = true ↔ ∀ i j, i < j → j < f.valency → has f.fullspots i j ((spotOf f a).testBit i) ((spotOf f a).testBit j) = true := by
    intro a
    rw [g3]
    constructor
    · rintro ⟨_, hall⟩ i j hij hj
      rcases count_blightless (hr i j hij hj) (ho i (by omega)) (ho j hj) with hc | hc
      · exact hall (i, j) (by rw [List.mem_filter, mem_pairsBelow, decide_eq_true_eq]; exact ⟨⟨hij, hj⟩, hc⟩)
      · exact count_four hc _ _
    · intro hall
      refine ⟨by rw [eval_const], ?_⟩
      rintro ⟨i, j⟩ hp
      rw [List.mem_filter, mem_pairsBelow] at hp
      exact hall i j hp.1.1 hp.1.2
  refine ⟨g, ?_, g2, g4⟩
  obtain ⟨_, _, ge, _, _, _, o3, _, _, _, o7, _⟩ := C53_order g f g2.reach h.reach
  have hge : ge = true := by
    rw [o7, implies_iff hs g2.toSound]
    intro a ha
    rw [g4]
    intro i j _ _
    rw [has_iff]
    exact ⟨spotOf f a, (spot_mem hs _).2 ha, rfl, rfl⟩
  unfold Boolf.gaplessBoolf
  rw [hb, splits_eq hs, threeOverlaps_eq hs, newTT_one]
  simp only [bind, Except.bind, if_true]
  rw [g1]
  simp only
  rw [o3, hge]
  rfl

/-- **C87.** `gapless_boolf` raises `BoolfNotBlightlessError` iff the function is not blightless; otherwise it is true at a number iff for each two atoms
of the function there is a number with the same digits at these two where the function is true. -/
theorem C87_gapless_boolf (f : Boolf) (hf : Reach f) :
    (f.isBlightless = .ok false → f.gaplessBoolf = .error .boolfNotBlightless) ∧
    (f.isBlightless = .ok true → ∃ g, f.gaplessBoolf = .ok g ∧ Reach g ∧
      ∀ key : Nat, g.getItem key = .ok true ↔ ∀ x ∈ f.atomvals, ∀ y ∈ f.atomvals, x ≠ y →
        ∃ key' : Nat, f.getItem key' = .ok true ∧ key'.testBit x = key.testBit x ∧ key'.testBit y = key.testBit y) := by
  have h := hf.canon
  have hs := h.toSound
  constructor
  · intro hb
    unfold Boolf.gaplessBoolf
    rw [hb]
    rfl
  · intro hb
    obtain ⟨g, g1, g2, g3⟩ := gapless_eval h hb
    refine ⟨g, g1, g2.reach, fun key => ?_⟩
    rw [getItem_true g2.toSound, g3]
    constructor
    · intro hall x hx y hy hxy
      obtain ⟨i, hi⟩ := List.getElem?_of_mem hx
      obtain ⟨j, hj⟩ := List.getElem?_of_mem hy
      have hlt : ∀ {a x : Nat}, f.atomvals[a]? = some x → a < f.valency := fun ha => by rw [h.val]; exact getElem?_some_lt ha
      have hij : i ≠ j := by rintro rfl; rw [hi] at hj; exact hxy (Option.some.inj hj)
      rcases Nat.lt_or_gt_of_ne hij with h1 | h1
      · have := hall i j h1 (hlt hj)
        rw [spotOf_testBit hi, spotOf_testBit hj, has_key hs hi hj] at this
        exact this
      · have := hall j i h1 (hlt hi)
        rw [spotOf_testBit hi, spotOf_testBit hj, has_key hs hj hi] at this
        obtain ⟨k, k1, k2, k3⟩ := this
        exact ⟨k, k1, k3, k2⟩
    · intro hall i j hij hj
      obtain ⟨x, hx⟩ := atom_some hs (show i < f.valency by omega)
      obtain ⟨y, hy⟩ := atom_some hs hj
      rw [spotOf_testBit hx, spotOf_testBit hy, has_key hs hx hy]
      exact hall x (List.mem_of_getElem? hx) y (List.mem_of_getElem? hy) (Nat.ne_of_lt (getElem_lt h.asc hx hy hij))

/-- the gapless function has no other atoms -/
theorem gapless_sub {f g : Boolf} (h : Canon f) (hb : f.isBlightless = .ok true) (hg : f.gaplessBoolf = .ok g) : ∀ x ∈ g.atomvals, x ∈ f.atomvals := by
  obtain ⟨g', g1, g2, g3⟩ := gapless_eval h hb
  rw [hg] at g1; cases g1
  intro x hx
  rw [g2.mem_iff] at hx
  by_contra hn
  obtain ⟨a, ha⟩ := hx
  apply ha
  rw [Bool.eq_iff_iff, g3, g3]
  have : spotOf f (upd a x false) = spotOf f (upd a x true) := by
    unfold spotOf
    congr 1
    refine List.map_congr_left fun y hy => ?_
    unfold upd
    rw [if_neg (by rintro rfl; exact hn hy), if_neg (by rintro rfl; exact hn hy)]
  rw [this]

/-- **C87.** The gapless function of a blightless function is implied by it, has no other atoms, is blightless, and is its own gapless function. -/
theorem C87_gapless_closure (f : Boolf) (hf : Reach f) (hb : f.isBlightless = .ok true) : ∃ g, f.gaplessBoolf = .ok g ∧ (∀ x ∈ g.atomvals, x ∈ f.atomvals) ∧
    (∀ key : Nat, f.getItem key = .ok true → g.getItem key = .ok true) ∧ g.isBlightless = .ok true ∧ g.gaplessBoolf = .ok g := by
  have h := hf.canon
  obtain ⟨g, g1, g2, g3⟩ := (C87_gapless_boolf f hf).2 hb
  have hgs := g2.canon.toSound
  have hsub := gapless_sub h hb g1
  have himp : ∀ key : Nat, f.getItem key = .ok true → g.getItem key = .ok true := by
    intro key hk
    rw [g3]
    exact fun x _ y _ _ => ⟨key, hk, rfl, rfl⟩
  obtain ⟨b, c, _, _, b3, b4, b5⟩ := C83_bloatless_blotless f hf
  rw [hb, Except.ok.injEq, eq_comm, Bool.and_eq_true, b4, b5] at b3
  obtain ⟨f1, f2⟩ := b3
  have hgb : g.isBlightless = .ok true := by
    obtain ⟨b, c, _, _, d3, d4, d5⟩ := C83_bloatless_blotless g g2
    rw [d3, Except.ok.injEq, Bool.and_eq_true, d4, d5]
    constructor
    · intro x hx y hy hxy
      obtain ⟨⟨k, k1, k2⟩, ⟨k', k3, k4⟩⟩ := f1 x (hsub x hx) y (hsub y hy) hxy
      exact ⟨⟨k, himp k k1, k2⟩, ⟨k', himp k' k3, k4⟩⟩
    · intro x hx
      obtain ⟨⟨k, k1, k2⟩, ⟨k', k3, k4⟩⟩ := f2 x (hsub x hx)
      exact ⟨⟨k, himp k k1, k2⟩, ⟨k', himp k' k3, k4⟩⟩
  refine ⟨g, g1, hsub, himp, hgb, ?_⟩
  obtain ⟨k, k1, k2, k3⟩ := (C87_gapless_boolf g g2).2 hgb
  rw [k1]
  congr 1
  refine k2.canon.ext_key g2.canon fun key => ?_
  have hiff : k.getItem key = .ok true ↔ g.getItem key = .ok true := by
    constructor
    · intro hk
      rw [k3] at hk
      rw [g3]
      -- an atom the gapless function does not have
      have one : ∀ x ∈ f.atomvals, ∀ y ∈ f.atomvals, x ≠ y → x ∉ g.atomvals →
          ∃ key' : Nat, f.getItem key' = .ok true ∧ key'.testBit x = key.testBit x ∧ key'.testBit y = key.testBit y := by
        intro x hx y hy hxy hxg
        obtain ⟨m, m1, m2⟩ : ∃ m : Nat, f.getItem m = .ok true ∧ m.testBit y = key.testBit y := by
          obtain ⟨⟨m, m1, m2⟩, ⟨m', m3, m4⟩⟩ := f2 y hy
          cases hky : key.testBit y
          · exact ⟨m', m3, m4⟩
          · exact ⟨m, m1, m2⟩
        obtain ⟨m', e1, e2⟩ := exists_key h.toSound (upd m.testBit x (key.testBit x))
        have : g.getItem m' = .ok true := by
          have := himp m m1
          rw [getItem_true hgs] at this ⊢
          rw [← this]
          apply Boolf.eval_congr
          intro z hz
          rw [e2 z (hsub z hz)]
          unfold upd
          rw [if_neg (by rintro rfl; exact hxg hz)]
        obtain ⟨m'', q1, q2, q3⟩ := (g3 m').1 this x hx y hy hxy
        refine ⟨m'', q1, ?_, ?_⟩
        · rw [q2, e2 x hx]; unfold upd; rw [if_pos rfl]
        · rw [q3, e2 y hy]; unfold upd; rw [if_neg (Ne.symm hxy), m2]
      intro x hx y hy hxy
      by_cases hxg : x ∈ g.atomvals
      · by_cases hyg : y ∈ g.atomvals
        · obtain ⟨m, m1, m2, m3⟩ := hk x hxg y hyg hxy
          obtain ⟨m', q1, q2, q3⟩ := (g3 m).1 m1 x hx y hy hxy
          exact ⟨m', q1, q2.trans m2, q3.trans m3⟩
        · obtain ⟨m, m1, m2, m3⟩ := one y hy x hx (Ne.symm hxy) hyg
          exact ⟨m, m1, m3, m2⟩
      · exact one x hx y hy hxy hxg
    · intro hg
      rw [k3]
      exact fun x _ y _ _ => ⟨key, hg, rfl, rfl⟩
  rw [getItem_true k2.canon.toSound, getItem_true hgs] at hiff
  rw [getItem_eq k2.canon.toSound, getItem_eq hgs, Bool.eq_iff_iff.2 hiff]

/-- the function of the atoms 0, 1, 2 that is true at 1, 2, 4: two atoms are never true together, so the gapless function is true at 0, 1, 2, 4 -/
example : ∃ f, newTT (.str ['0', '1', '1', '0', '1', '0', '0', '0']) = .ok f ∧ Reach f ∧ f.isBlightless = .ok true ∧
    (do return (← f.gaplessBoolf).root.vector) = .ok [true, true, true, false, true, false, false, false] ∧
    (do return (← f.gaplessBoolf).atomvals) = .ok [0, 1, 2] := by
  obtain ⟨_, e1, e2⟩ := newTT_explicit ['0', '1', '1', '0', '1', '0', '0', '0'] [false, true, true, false, true, false, false, false] [0, 1, 2] 3
    (by decide) (by decide) (by decide) (by intro n; simp; omega) (by decide) (by decide)
  exact ⟨_, e1 (by decide), e2.reach, by decide +kernel, by decide +kernel, by decide +kernel⟩

/-- the conjunction of the atoms 0 and 1 is not blightless -/
example : ∃ f, newTT (.str ['0', '0', '0', '1']) = .ok f ∧ Reach f ∧ f.isBlightless = .ok false ∧ f.gaplessBoolf = .error .boolfNotBlightless := by
  obtain ⟨_, e1, e2⟩ := newTT_explicit ['0', '0', '0', '1'] [false, false, false, true] [0, 1] 2
    (by decide) (by decide) (by decide) (by intro n; simp; omega) (by decide) (by decide)
  have hb : Boolf.isBlightless { root := { vector := [false, false, false, true] }, atomvals := [0, 1], valency := [0, 1].length, adicity := 2 } = .ok false := by
    decide +kernel
  exact ⟨_, e1 (by decide), e2.reach, hb, (C87_gapless_boolf _ e2.reach).1 hb⟩

end Verif.BF
