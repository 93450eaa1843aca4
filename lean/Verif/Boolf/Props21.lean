import Verif.Boolf.Props20

/-!
# C84: bloatless functions
-/

namespace Verif.BF
open Verif.Py Verif.BV Verif.P Verif.W Verif.SP Verif.SPC
open Verif.A hiding Mat

/-- the spot of an assignment -/
def spotOf (f : Boolf) (a : Nat → Bool) : Nat := valB (f.atomvals.map a)

theorem spotOf_lt {f : Boolf} (h : Sound f) (a : Nat → Bool) : spotOf f a < 2 ^ f.valency := by
  unfold spotOf; rw [h.val]; exact valB_map_lt _ _

theorem spotOf_testBit {f : Boolf} {k x : Nat} (hk : f.atomvals[k]? = some x) (a : Nat → Bool) : (spotOf f a).testBit k = a x := spot_testBit hk a

theorem keyVal_spotOf {f : Boolf} (h : Sound f) (a : Nat → Bool) {k : Nat} (hk : k < f.valency) : keyVal f a k = (spotOf f a).testBit k := by
  obtain ⟨x, hx⟩ := atom_some h hk
  rw [keyVal_nat hx, spotOf_testBit hx]

theorem spotOf_onto {f : Boolf} (h : Sound f) {s : Nat} (hs : s < 2 ^ f.valency) : ∃ a, spotOf f a = s := by
  obtain ⟨a, a1, _⟩ := spot_assign h (by rw [← h.val]; exact hs)
  exact ⟨a, a1⟩

theorem bloat_eval {f : Boolf} (h : Canon f) (hF : f.fullspots ≠ []) :
    ∃ g, f.bloatBoolf = .ok g ∧ Canon g ∧ ∀ a, g.eval a = true ↔ Follows f.fullspots f.valency (spotOf f a) := by
  obtain ⟨g, g1, g2, g3⟩ := bloatBoolf_spec h
  refine ⟨g, g1, g2, fun a => ?_⟩
  rw [g3, models_bloat hF]
  unfold Follows
  constructor
  · intro h1 x y hx hy
    rw [← keyVal_spotOf h.toSound a hx, ← keyVal_spotOf h.toSound a hy]; exact h1 x y hx hy
  · intro h1 x y hx hy
    rw [keyVal_spotOf h.toSound a hx, keyVal_spotOf h.toSound a hy]; exact h1 x y hx hy

theorem follows_spot {F : List Nat} (n : Nat) {s : Nat} (hs : s ∈ F) : Follows F n s := fun a b _ _ =>
  ⟨fun h => by simpa using h s hs, fun h => by simpa using h s hs⟩

/-- the chosen atoms determine the others -/
theorem follows_ext {F : List Nat} {n s t : Nat} (hs : Follows F n s) (ht : Follows F n t) (h : ∀ r ∈ reps F n, s.testBit r = t.testBit r) {k : Nat} (hk : k < n) :
    s.testBit k = t.testBit k := by
  have hr := h _ (repK_mem (F := F) hk)
  rcases related_iff.1 (repK_related (F := F) hk) with he | he
  · rw [(hs k _ hk (repK_lt hk)).1 he, (ht k _ hk (repK_lt hk)).1 he, hr]
  · have h1 := (hs k _ hk (repK_lt hk)).2 he
    have h2 := (ht k _ hk (repK_lt hk)).2 he
    rw [← hr] at h2
    revert h1 h2
    cases s.testBit k <;> cases t.testBit k <;> cases s.testBit (repK F n k) <;> simp

/-- the chosen atoms are free -/
theorem follows_exists {F : List Nat} (hF : F ≠ []) (n : Nat) (u : Nat → Bool) : ∃ s < 2 ^ n, Follows F n s ∧ ∀ r ∈ reps F n, s.testBit r = u r := by
  have hb : ∀ k < n, (valB ((List.range n).map fun k => u (repK F n k) ^^ ((F.headD 0).testBit k ^^ (F.headD 0).testBit (repK F n k)))).testBit k =
      (u (repK F n k) ^^ ((F.headD 0).testBit k ^^ (F.headD 0).testBit (repK F n k))) := by
    intro k hk
    rw [testBit_valB_map, List.getElem?_range hk]; rfl
  refine ⟨valB ((List.range n).map fun k => u (repK F n k) ^^ ((F.headD 0).testBit k ^^ (F.headD 0).testBit (repK F n k))), ?_, ?_, ?_⟩
  · have := valB_map_lt (List.range n) fun k => u (repK F n k) ^^ ((F.headD 0).testBit k ^^ (F.headD 0).testBit (repK F n k))
    rwa [List.length_range] at this
  · intro a b ha hb'
    rw [hb a ha, hb b hb']
    constructor
    · intro he
      have hr : related F a b = true := related_iff.2 (Or.inl he)
      rw [repK_congr hr, (eqOn_iff_head hF hr).1.1 he]
    · intro he
      have hr : related F a b = true := related_iff.2 (Or.inr he)
      have := (eqOn_iff_head hF hr).2.1 he
      rw [repK_congr hr]
      revert this
      cases (F.headD 0).testBit a <;> cases (F.headD 0).testBit b <;> simp
  · intro r hr
    obtain ⟨r1, r2⟩ := mem_reps.1 hr
    rw [hb r r1, r2]; simp

theorem eval_of_eq {f g : Boolf} (h : f.eq g = true) : f.eval = g.eval := by
  obtain ⟨h1, h2⟩ := (Boolf.eq_iff f g).1 h
  funext a
  unfold Boolf.eval
  rw [h1, h2]

theorem newTT_one : newTT (.str ['1']) = .ok (setConstant true) := rfl

theorem bloatless_eval {f : Boolf} (h : Canon f) :
    ∃ g, f.bloatlessBoolf = .ok g ∧ Canon g ∧
      ∀ a, g.eval a = true ↔ ∃ s ∈ f.fullspots, ∀ r ∈ reps f.fullspots f.valency, s.testBit r = (spotOf f a).testBit r := by
  unfold Boolf.bloatlessBoolf
  cases hc : f.isConstant
  · have hat := atoms_of_not_const h hc
    have hF := fullspots_ne_nil h hat
    obtain ⟨b, b1, b2, b3⟩ := bloat_eval h hF
    rw [if_neg (by simp), b1]
    simp only [bind, Except.bind]
    by_cases heq : b.eq f = true
    · rw [if_pos heq, newTT_one]
      refine ⟨_, rfl, canon_const true, fun a => ?_⟩
      rw [eval_const]
      simp only [true_iff]
      obtain ⟨s, s1, s2, s3⟩ := follows_exists hF f.valency (spotOf f a).testBit
      refine ⟨s, ?_, s3⟩
      obtain ⟨a', rfl⟩ := spotOf_onto h.toSound s1
      unfold spotOf
      rw [spot_mem h.toSound, ← eval_of_eq heq, b3]
      exact s2
    · rw [if_neg heq]
      have hsp : f.root.exposet.mapM (fun spotint : Nat => f.bloatlessSpotint spotint) =
          .ok (f.fullspots.map fun s => valB ((reps f.fullspots f.valency).map s.testBit)) := by
        apply mapM_ok
        intro s hs
        exact (bloatlessSpotint_spec h hc s).2.2 (by rw [h.val]; exact fullspots_lt h.toSound hs) (follows_spot _ hs)
      rw [hsp, distinct_eq h hc, undeflated_eq h hc]
      simp only
      obtain ⟨m, m1, m2, m3⟩ := (C26_exposet (f.fullspots.map fun s => valB ((reps f.fullspots f.valency).map s.testBit)).dedup
        (2 ^ (reps f.fullspots f.valency).length)).1 (by
          intro i hi
          rw [List.mem_dedup, List.mem_map] at hi
          obtain ⟨s, _, rfl⟩ := hi
          exact valB_map_lt _ _)
      rw [m1]
      simp only
      have hitem : ((reps f.fullspots f.valency).map Int.ofNat).mapM (fun k : Int => item f.atomvals k.toNat) =
          .ok ((reps f.fullspots f.valency).map fun r => f.atomvals.getD r 0) := by
        rw [mapM_ok (g := fun k : Int => f.atomvals.getD k.toNat 0), List.map_map]
        · rfl
        · intro k hk
          obtain ⟨r, hr, rfl⟩ := List.mem_map.1 hk
          obtain ⟨x, hx⟩ := atom_some h.toSound (mem_reps.1 hr).1
          show item f.atomvals r = .ok (f.atomvals.getD r 0)
          rw [item_ok hx, List.getD_eq_getElem?_getD, hx]; rfl
      rw [hitem]
      simp only
      have hasc : ((reps f.fullspots f.valency).map fun r => f.atomvals.getD r 0).Pairwise (· < ·) := by
        rw [List.pairwise_map]
        refine (reps_asc _ _).imp_of_mem fun {a b} ha hb hab => ?_
        obtain ⟨x, hx⟩ := atom_some h.toSound (mem_reps.1 ha).1
        obtain ⟨y, hy⟩ := atom_some h.toSound (mem_reps.1 hb).1
        simp only [List.getD_eq_getElem?_getD, hx, hy, Option.getD_some]
        exact getElem_lt h.asc hx hy hab
      obtain ⟨g, g1, g2, g3⟩ := ttDeflated_asc (b := m) hasc (by rw [List.length_map]; exact m2)
      obtain ⟨v⟩ := m
      rw [newTT_binv]
      refine ⟨g, g1, g2, fun a => ?_⟩
      have hmap : ((reps f.fullspots f.valency).map fun r => f.atomvals.getD r 0).map a = (reps f.fullspots f.valency).map (spotOf f a).testBit := by
        rw [List.map_map]
        refine List.map_congr_left fun r hr => ?_
        obtain ⟨x, hx⟩ := atom_some h.toSound (mem_reps.1 hr).1
        simp only [Function.comp, List.getD_eq_getElem?_getD, hx, Option.getD_some]
        exact (spotOf_testBit hx a).symm
      rw [g3, hmap]
      have hm : v.getD (valB ((reps f.fullspots f.valency).map (spotOf f a).testBit)) false = true ↔
          valB ((reps f.fullspots f.valency).map (spotOf f a).testBit) ∈ (⟨v⟩ : Binv).exposet := by
        rw [mem_exposet, List.getD_eq_getElem?_getD]
        simp only
        cases v[valB ((reps f.fullspots f.valency).map (spotOf f a).testBit)]? <;> simp
      rw [hm, m3, List.mem_dedup, List.mem_map]
      constructor
      · rintro ⟨s, hs, he⟩
        exact ⟨s, hs, fun r hr => List.map_inj_left.1 (valB_inj (by simp) he) r hr⟩
      · rintro ⟨s, hs, he⟩
        exact ⟨s, hs, by rw [List.map_congr_left he]⟩
  · have hat := atoms_of_const h hc
    refine ⟨f, by rw [if_pos rfl], h, fun a => ?_⟩
    have hv : f.valency = 0 := by rw [h.val, hat]; rfl
    rw [← spot_mem h.toSound, hv]
    have hz : ∀ s ∈ f.fullspots, s = 0 := by
      intro s hs
      have := fullspots_lt h.toSound hs
      rw [hat] at this; simp at this; exact this
    rw [show valB (f.atomvals.map a) = 0 by rw [hat]; rfl]
    constructor
    · intro h0; exact ⟨0, h0, by intro r hr; simp [reps] at hr⟩
    · rintro ⟨s, hs, _⟩; rw [← hz s hs]; exact hs

end Verif.BF
