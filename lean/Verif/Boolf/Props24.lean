import Verif.Boolf.Props23

/-!
# C85: blightless functions
-/

namespace Verif.BF
open Verif.Py Verif.BV Verif.P Verif.W Verif.SP Verif.SPC
open Verif.A hiding Mat

/-- wherever the function is true, the atom has the same value -/
def Settled (f : Boolf) (x : Nat) : Prop := ∃ c : Bool, ∀ key : Nat, f.getItem key = .ok true → key.testBit x = c

theorem oneside_settled {f : Boolf} (h : Sound f) {a x : Nat} (ha : f.atomvals[a]? = some x) : oneside f.fullspots a = true ↔ Settled f x := by
  rw [oneside_key h ha]
  constructor
  · rintro (h1 | h1)
    · exact ⟨true, h1⟩
    · exact ⟨false, h1⟩
  · rintro ⟨c, hc⟩
    cases c
    · exact Or.inr hc
    · exact Or.inl hc

/-- **C85.** `blightless_boolf` is always computed.  It is true at a number iff the function is true at some number that agrees with the
first one at all representative atoms that are not onesided. -/
theorem C85_blightless_boolf (f : Boolf) (hf : Reach f) :
    ∃ (k : Boolf) (l : List Nat), f.blightlessBoolf = .ok k ∧ Reach k ∧ f.bloatlessAtomkeysUndeflated = .ok (l.map Int.ofNat) ∧
      (∀ x ∈ k.atomvals, ¬ Settled f x ∧ ∃ r ∈ l, f.atomvals[r]? = some x) ∧
      ∀ key : Nat, k.getItem key = .ok true ↔
        ∃ key' : Nat, f.getItem key' = .ok true ∧ ∀ r ∈ l, ∀ x : Nat, f.atomvals[r]? = some x → ¬ Settled f x → key'.testBit x = key.testBit x := by
  have h := hf.canon
  have hs := h.toSound
  obtain ⟨k, k1, k2, k3⟩ := blightless_eval h
  obtain ⟨g, g1, _, _⟩ := bloatless_eval h
  refine ⟨k, reps f.fullspots f.valency, k1, k2.reach, undeflated_all h, fun x hx => ?_, fun key => ?_⟩
  · obtain ⟨r, hr, hrx⟩ := (mem_blightless h g1 k1 x).1 hx
    obtain ⟨y, hy, hyg, ho⟩ := (mem_freeKeys hs).1 hr
    rw [hrx] at hy; cases hy
    refine ⟨fun hset => ?_, bloatless_atoms h g1 hyg⟩
    rw [(oneside_settled hs hrx).2 hset] at ho; cases ho
  · have hos : ∀ {r x : Nat}, f.atomvals[r]? = some x → (oneside f.fullspots r = false ↔ ¬ Settled f x) := by
      intro r x hx
      rw [← oneside_settled hs hx, Bool.not_eq_true]
    rw [getItem_true k2.toSound, k3]
    constructor
    · rintro ⟨s, s1, s2⟩
      obtain ⟨key', e1, e2⟩ := spot_key hs s1
      exact ⟨key', e1, fun r hr x hx hn => by rw [e2 r x hx, s2 r hr ((hos hx).2 hn), spotOf_testBit hx]⟩
    · rintro ⟨key', e1, e2⟩
      obtain ⟨s, s1, s2⟩ := key_spot hs e1
      refine ⟨s, s1, fun r hr ho => ?_⟩
      obtain ⟨x, hx⟩ := atom_some hs (mem_reps.1 hr).1
      rw [s2 r x hx, e2 r hr x hx ((hos hx).1 ho), spotOf_testBit hx]

/-- **C85.** `blightless_atomkeys` is the ascending list of the positions of the atoms of `blightless_boolf`; these are the atoms of
`bloatless_boolf` that are not onesided; and `bloatless_atomkeys_deflated` is the list for `bloatless_boolf`. -/
theorem C85_atomkeys (f : Boolf) (hf : Reach f) :
    ∃ (g k : Boolf) (l m : List Nat), f.bloatlessBoolf = .ok g ∧ f.blightlessBoolf = .ok k ∧ f.bloatlessAtomkeysDeflated = .ok l ∧ f.blightlessAtomkeys = .ok m ∧
      l.Pairwise (· < ·) ∧ m.Pairwise (· < ·) ∧
      (∀ a, a ∈ l ↔ ∃ x ∈ g.atomvals, f.atomvals[a]? = some x) ∧ (∀ a, a ∈ m ↔ ∃ x ∈ k.atomvals, f.atomvals[a]? = some x) ∧
      (∀ x ∈ g.atomvals, x ∈ f.atomvals) ∧ ∀ x, x ∈ k.atomvals ↔ x ∈ g.atomvals ∧ ¬ Settled f x := by
  have h := hf.canon
  have hs := h.toSound
  obtain ⟨k, k1, k2, k3⟩ := blightless_eval h
  obtain ⟨g, g1, _, _⟩ := bloatless_eval h
  have hfree : ∀ a, a ∈ freeKeys f g ↔ ∃ x ∈ k.atomvals, f.atomvals[a]? = some x := by
    intro a
    constructor
    · intro ha
      obtain ⟨x, hx, _⟩ := (mem_freeKeys hs).1 ha
      exact ⟨x, (mem_blightless h g1 k1 x).2 ⟨a, ha, hx⟩, hx⟩
    · rintro ⟨x, hx, hax⟩
      obtain ⟨r, hr, hrx⟩ := (mem_blightless h g1 k1 x).1 hx
      have : a = r := by
        rcases Nat.lt_trichotomy a r with h3 | h3 | h3
        · have := getElem_lt h.asc hax hrx h3; omega
        · exact h3
        · have := getElem_lt h.asc hrx hax h3; omega
      rw [this]; exact hr
  have hgf : ∀ x ∈ g.atomvals, x ∈ f.atomvals := by
    intro x hx
    obtain ⟨r, _, hr⟩ := bloatless_atoms h g1 hx
    exact List.mem_of_getElem? hr
  refine ⟨g, k, _, _, g1, k1, deflated_eq h g1, blightlessAtomkeys_eq h g1, List.pairwise_lt_range.filter _, List.pairwise_lt_range.filter _, fun a => ?_, hfree, hgf, fun x => ?_⟩
  · rw [List.mem_filter, List.mem_range, List.contains_iff_mem]
    constructor
    · rintro ⟨h1, h2⟩
      obtain ⟨x, hx⟩ := atom_some hs h1
      rw [List.getD_eq_getElem?_getD, hx] at h2
      exact ⟨x, h2, hx⟩
    · rintro ⟨x, h2, hx⟩
      refine ⟨by rw [h.val]; exact getElem?_some_lt hx, ?_⟩
      rw [List.getD_eq_getElem?_getD, hx]; exact h2
  · rw [mem_blightless h g1 k1]
    constructor
    · rintro ⟨r, hr, hrx⟩
      obtain ⟨y, hy, hyg, ho⟩ := (mem_freeKeys hs).1 hr
      rw [hrx] at hy; cases hy
      refine ⟨hyg, ?_⟩
      rw [← oneside_settled hs hrx, ho]; simp
    · rintro ⟨hxg, hset⟩
      obtain ⟨r, _, hr⟩ := bloatless_atoms h g1 hxg
      refine ⟨r, (mem_freeKeys hs).2 ⟨x, hr, hxg, ?_⟩, hr⟩
      rw [← oneside_settled hs hr, Bool.not_eq_true] at hset; exact hset

/-- **C85.** The function is the intersection of `blightless_boolf` and `blight_boolf`. -/
theorem C85_intersection (f : Boolf) (hf : Reach f) : ∃ k b, f.blightlessBoolf = .ok k ∧ f.blightBoolf = .ok b ∧ k.and b = .ok f := by
  have h := hf.canon
  have hs := h.toSound
  obtain ⟨k, k1, k2, k3⟩ := blightless_eval h
  cases hc : f.isConstant
  · have hF := fullspots_ne_nil h (atoms_of_not_const h hc)
    obtain ⟨b, b1, b2, b3⟩ := blight_eval h hF
    obtain ⟨m, m1, m2, m3⟩ := and_spec k2.toSound b2.toSound
    refine ⟨k, b, k1, b1, ?_⟩
    rw [m1, m2.ext h]
    intro a
    rw [m3, Bool.eq_iff_iff, Bool.and_eq_true, k3, b3, ← spot_mem hs]
    constructor
    · rintro ⟨⟨s, s1, s2⟩, h2, h3⟩
      have : spotOf f a = s := spot_ext (spotOf_lt hs a) (by rw [h.val]; exact fullspots_lt hs s1) fun k hk =>
        (follows_ext (follows_spot _ s1) h2 (fun r hr => by
          cases ho : oneside f.fullspots r
          · exact s2 r hr ho
          · rw [(oneside_head ho s1).1, h3 r (mem_reps.1 hr).1 ho]) hk).symm
      show spotOf f a ∈ _
      rw [this]; exact s1
    · intro h1
      exact ⟨⟨_, h1, fun _ _ _ => rfl⟩, follows_spot _ h1, fixed_spot _ h1⟩
  · have hg : f.blightlessBoolf = .ok f := by unfold Boolf.blightlessBoolf; rw [if_pos hc]
    obtain ⟨b, g1, g2, b1, b2, b3, b4, b5, b6⟩ := C83_blight_boolf f hf
    obtain ⟨m, m1, m2, m3⟩ := and_spec hs b4.canon.toSound
    refine ⟨f, b, hg, b1, ?_⟩
    rw [m1, m2.ext h]
    intro a
    rw [m3]
    obtain ⟨key, e1, e2⟩ := eval_key f b hs b4.canon.toSound a
    have := b6 key
    rw [getItem_true hs, getItem_true b4.canon.toSound, ← e1, ← e2] at this
    cases hfa : f.eval a
    · rfl
    · rw [this hfa]; rfl

/-- **C85.** `blightless_boolf` is blightless, and a function is blightless iff it is its own `blightless_boolf`. -/
theorem C85_is_blightless (f : Boolf) (hf : Reach f) : ∃ k, f.blightlessBoolf = .ok k ∧ k.isBlightless = .ok true ∧ k.blightlessBoolf = .ok k ∧
    (f.isBlightless = .ok true ↔ k = f) := by
  have key1 : ∀ f : Boolf, Reach f → f.isBlightless = .ok true → f.blightlessBoolf = .ok f := by
    intro f hf hb
    have h := hf.canon
    obtain ⟨k, l, k1, k2, k3, k4, k5⟩ := C85_blightless_boolf f hf
    obtain ⟨b, c, b1, _, b3, b4, b5⟩ := C83_bloatless_blotless f hf
    rw [hb] at b3
    have hbc := Except.ok.inj b3
    rw [eq_comm, Bool.and_eq_true] at hbc
    obtain ⟨rfl, rfl⟩ := hbc
    have hbl := C84_is_bloatless f hf
    obtain ⟨g, g1, g2, g3, g4⟩ := hbl
    obtain rfl := g4.1 b1
    have hns : ∀ x ∈ g.atomvals, ¬ Settled g x := by
      rintro x hx ⟨c, hc⟩
      obtain ⟨⟨k, k1, k2⟩, ⟨k', k3, k4⟩⟩ := (b5.1 rfl) x hx
      rw [hc k k1] at k2
      rw [hc k' k3, k2] at k4
      cases k4
    obtain ⟨g', k', l', m', q1, q2, _, _, _, _, _, _, _, q9⟩ := C85_atomkeys g hf
    rw [g1] at q1; cases q1
    rw [k1] at q2; cases q2
    obtain ⟨g'', l'', p1, _, p3, _, p5⟩ := C84_bloatless_boolf g hf
    rw [g1] at p1; cases p1
    have hll : l'' = l := by
      rw [k3] at p3
      exact (List.map_injective_iff.2 (fun a b h => by simpa using h) (Except.ok.inj p3)).symm
    subst hll
    rw [k1, k2.canon.ext_key h]
    intro key
    have : k.getItem key = .ok true ↔ g.getItem key = .ok true := by
      rw [k5, p5]
      refine exists_congr fun key' => and_congr_right fun _ => forall_congr' fun r => forall_congr' fun _ => forall_congr' fun x => forall_congr' fun hx => ?_
      have := hns x (List.mem_of_getElem? hx)
      tauto
    rw [getItem_true k2.canon.toSound, getItem_true h.toSound, ← Bool.eq_iff_iff] at this
    rw [getItem_eq k2.canon.toSound, getItem_eq h.toSound, this]
  obtain ⟨k, l, k1, k2, k3, k4, k5⟩ := C85_blightless_boolf f hf
  have hk : k.isBlightless = .ok true := by
    obtain ⟨b, c, _, _, b3, b4, b5⟩ := C83_bloatless_blotless k k2
    have htrue : ∀ key : Nat, f.getItem key = .ok true → k.getItem key = .ok true := fun key hkey => (k5 key).2 ⟨key, hkey, fun _ _ _ _ _ => rfl⟩
    have hb : b = true := by
      rw [b4]
      intro x hx y hy hxy
      obtain ⟨_, r, hr, hrx⟩ := k4 x hx
      obtain ⟨_, t, ht, hty⟩ := k4 y hy
      obtain rfl : l = reps f.fullspots f.valency := by
        rw [undeflated_all hf.canon] at k3
        exact (List.map_injective_iff.2 (fun a b h => by simpa using h) (Except.ok.inj k3)).symm
      have hrt : r ≠ t := by rintro rfl; rw [hrx] at hty; exact hxy (Option.some.inj hty)
      have hun := reps_unrelated hr ht hrt
      rw [← Bool.not_eq_true, related_same hf.canon.toSound hrx hty, not_or] at hun
      unfold Same Opposite at hun
      push Not at hun
      obtain ⟨⟨q, q1, q2⟩, ⟨q', q3, q4⟩⟩ := hun
      exact ⟨⟨q', htrue q' q3, q4⟩, ⟨q, htrue q q1, q2⟩⟩
    have hc : c = true := by
      rw [b5]
      intro x hx
      have hns := (k4 x hx).1
      unfold Settled at hns
      push Not at hns
      obtain ⟨q, q1, q2⟩ := hns false
      obtain ⟨q', q3, q4⟩ := hns true
      exact ⟨⟨q, htrue q q1, by simpa using q2⟩, ⟨q', htrue q' q3, by simpa using q4⟩⟩
    rw [b3, hb, hc]; rfl
  refine ⟨k, k1, hk, key1 k k2 hk, ?_⟩
  constructor
  · intro h1
    have := key1 f hf h1
    rw [k1] at this
    exact Except.ok.inj this
  · rintro rfl; exact hk

/-! ### blightless spotint -/

theorem areEqual_neg {f : Boolf} (h : Canon f) {t : SetPartComp} (ht : f.blight = .ok t) {r : Nat} (hr : r < f.valency) (ho : oneside f.fullspots r = true) :
    t.areEqual (-1) r = (f.fullspots.headD 0).testBit r := by
  have hs := h.toSound
  obtain ⟨x, hx⟩ := atom_some hs hr
  obtain ⟨t', t1, t2⟩ := blight_reach h
  rw [ht] at t1; cases t1
  obtain ⟨t', e1, _, e3, _⟩ := C83_blight f h.reach
  rw [ht] at e1; cases e1
  obtain ⟨_, c1, _⟩ := C45_consequences _ t t2
  have hsym : t.areEqual (-1) r = t.areEqual r (-1) := by
    rw [Bool.eq_iff_iff, c1 _ _ (by omega), c1 _ _ (by omega)]
    exact ⟨fun h v hv => (h v hv).symm, fun h v hv => (h v hv).symm⟩
  have hF := spots_of_atom h hx
  rw [hsym, Bool.eq_iff_iff, (e3 r x hx).1, ← (eqOn_key1 hs hx).1]
  constructor
  · intro he
    have := he _ (headD_mem hF)
    simpa using this
  · intro hb s hs'
    rw [spotVal_nat, spotVal_neg, (oneside_head ho hs').1, hb]

theorem blightlessLoop_spec {f g : Boolf} (h : Canon f) {t : SetPartComp} (ht : f.blight = .ok t) (s : Nat) (l : List Nat) (hl : ∀ r ∈ l, r < f.valency) (acc : List Bool) :
    ((∀ r ∈ l, oneside f.fullspots r = true → s.testBit r = (f.fullspots.headD 0).testBit r) →
      blightlessLoop (freeKeys f g) ((List.range f.valency).filter (oneside f.fullspots)) t (l.map fun r : Nat => ((r : Int), s.testBit r)) acc =
        .ok (acc ++ (l.filter fun r => (freeKeys f g).contains r).map s.testBit)) ∧
    ((∃ r ∈ l, oneside f.fullspots r = true ∧ s.testBit r ≠ (f.fullspots.headD 0).testBit r) →
      blightlessLoop (freeKeys f g) ((List.range f.valency).filter (oneside f.fullspots)) t (l.map fun r : Nat => ((r : Int), s.testBit r)) acc =
        .error .blightMismatch) := by
  induction l generalizing acc with
  | nil => exact ⟨fun _ => by simp [blightlessLoop], by rintro ⟨r, hr, _⟩; cases hr⟩
  | cons r l ih =>
    have hr := hl r (by simp)
    have ih' := fun acc => ih (fun x hx => hl x (by simp [hx])) acc
    have hcon : ∀ (m : List Nat), (m.map Int.ofNat).contains (r : Int) = m.contains r := by
      intro m
      rw [Bool.eq_iff_iff, List.contains_iff_mem, List.contains_iff_mem, List.mem_map]
      constructor
      · rintro ⟨b, hb, he⟩
        have : b = r := by simpa using he
        rw [← this]; exact hb
      · intro hb; exact ⟨r, hb, rfl⟩
    rw [List.map_cons]
    unfold blightlessLoop
    rw [hcon, hcon]
    cases hfk : (freeKeys f g).contains r
    · rw [if_neg (by simp), List.filter_cons_of_neg (by simp; simpa using hfk)]
      cases ho : oneside f.fullspots r
      · have h1 : ((List.range f.valency).filter (oneside f.fullspots)).contains r = false := by
          rw [← Bool.not_eq_true, List.contains_iff_mem, List.mem_filter, ho]; simp
        rw [h1, if_neg (by simp)]
        simp only [List.forall_mem_cons, List.exists_mem_cons_iff, ho]
        obtain ⟨i1, i2⟩ := ih' acc
        refine ⟨fun h2 => i1 h2.2, ?_⟩
        rintro (⟨h2, _⟩ | h2)
        · cases h2
        · exact i2 h2
      · have h1 : ((List.range f.valency).filter (oneside f.fullspots)).contains r = true := by
          rw [List.contains_iff_mem, List.mem_filter, List.mem_range]; exact ⟨hr, ho⟩
        rw [h1, if_pos rfl, areEqual_neg h ht hr ho]
        simp only [List.forall_mem_cons, List.exists_mem_cons_iff, ho]
        obtain ⟨i1, i2⟩ := ih' acc
        by_cases hv : (f.fullspots.headD 0).testBit r = s.testBit r
        · rw [if_pos hv]
          refine ⟨fun h2 => i1 h2.2, ?_⟩
          rintro (⟨_, h2⟩ | h2)
          · exact absurd hv.symm h2
          · exact i2 h2
        · rw [if_neg hv]
          exact ⟨fun h2 => absurd (h2.1 trivial).symm hv, fun _ => rfl⟩
    · rw [if_pos rfl, List.filter_cons_of_pos (by simp; simpa using hfk)]
      have ho : oneside f.fullspots r = false := by
        rw [List.contains_iff_mem] at hfk
        obtain ⟨_, _, _, ho⟩ := (mem_freeKeys h.toSound).1 hfk
        exact ho
      simp only [List.forall_mem_cons, List.exists_mem_cons_iff, ho]
      obtain ⟨i1, i2⟩ := ih' (acc ++ [s.testBit r])
      refine ⟨fun h2 => ?_, ?_⟩
      · rw [i1 h2.2]; simp
      · rintro (⟨h2, _⟩ | h2)
        · cases h2
        · exact i2 h2

theorem blightlessSpotint_spec {f g : Boolf} (h : Canon f) (hc : f.isConstant = false) (hg : f.bloatlessBoolf = .ok g) (s : Nat) (hs : s < 2 ^ f.valency)
    (hfol : Follows f.fullspots f.valency s) :
    (Fixed f.fullspots f.valency s → f.blightlessSpotint s = .ok (valB ((freeKeys f g).map s.testBit))) ∧
    (¬ Fixed f.fullspots f.valency s → f.blightlessSpotint s = .error .blightMismatch) := by
  have hat := atoms_of_not_const h hc
  have hF := fullspots_ne_nil h hat
  have hn0 : 0 < f.valency := by rw [h.val]; exact List.length_pos_iff.2 hat
  obtain ⟨t, t1, _⟩ := blight_reach h
  have hR : 0 < (reps f.fullspots f.valency).length := List.length_pos_iff.2 (List.ne_nil_of_mem (repK_mem hn0))
  have hvec : (List.range (reps f.fullspots f.valency).length).map (valB ((reps f.fullspots f.valency).map s.testBit)).testBit = (reps f.fullspots f.valency).map s.testBit := by
    apply List.ext_getElem?
    intro i
    rw [List.getElem?_map, List.getElem?_map]
    by_cases hi : i < (reps f.fullspots f.valency).length
    · rw [List.getElem?_range hi, Option.map_some, testBit_valB_map, List.getElem?_eq_getElem hi]; rfl
    · rw [List.getElem?_eq_none (by simp; omega), List.getElem?_eq_none (by omega)]; rfl
  have hrun : f.blightlessSpotint s = (do
      let v ← blightlessLoop (freeKeys f g) ((List.range f.valency).filter (oneside f.fullspots)) t ((reps f.fullspots f.valency).map fun r : Nat => ((r : Int), s.testBit r)) []
      return (← ofBools v).intval) := by
    unfold Boolf.blightlessSpotint
    rw [(bloatlessSpotint_spec h hc s).2.2 hs hfol, undeflated_eq h hc, blightlessAtomkeys_eq h hg, onesidedAtomkeys_eq h, t1]
    simp only [bind, Except.bind, List.length_map]
    rw [mk_digits hR (valB_map_lt _ _)]
    simp only [hvec]
    rw [List.zip_map']
    rfl
  obtain ⟨l1, l2⟩ := blightlessLoop_spec (g := g) h t1 s (reps f.fullspots f.valency) (fun r hr => (mem_reps.1 hr).1) []
  constructor
  · intro hfix
    rw [hrun, l1 ((fixed_iff_reps hF hfol).1 hfix)]
    have : (reps f.fullspots f.valency).filter (fun r => (freeKeys f g).contains r) = freeKeys f g := by
      refine asc_ext ((reps_asc _ _).filter _) (List.pairwise_lt_range.filter _) fun r => ?_
      rw [List.mem_filter, List.contains_iff_mem]
      refine and_iff_right_of_imp fun hr => ?_
      obtain ⟨x, hx, hxg, _⟩ := (mem_freeKeys h.toSound).1 hr
      obtain ⟨r', hr', hx'⟩ := bloatless_atoms h hg hxg
      have : r = r' := by
        rcases Nat.lt_trichotomy r r' with h3 | h3 | h3
        · have := getElem_lt h.asc hx hx' h3; omega
        · exact h3
        · have := getElem_lt h.asc hx' hx h3; omega
      rw [this]; exact hr'
    rw [this]
    simp only [bind, Except.bind, pure, Except.pure, List.nil_append]
    rw [ofBools_eq]
    simp only
    rw [intval_eq]
  · intro hfix
    rw [fixed_iff_reps hF hfol] at hfix
    push Not at hfix
    rw [hrun, l2 hfix]
    rfl

/-- the digits of the number obey what is known about single atoms -/
def Heeds (f : Boolf) (s : Nat) : Prop := ∀ (a x : Nat) (c : Bool), f.atomvals[a]? = some x → (∀ key : Nat, f.getItem key = .ok true → key.testBit x = c) → s.testBit a = c

theorem heeds_iff {f : Boolf} (h : Canon f) (hF : f.fullspots ≠ []) (s : Nat) : Fixed f.fullspots f.valency s ↔ Heeds f s := by
  have hs := h.toSound
  have hval : ∀ (a x : Nat) (c : Bool), f.atomvals[a]? = some x → (∀ key : Nat, f.getItem key = .ok true → key.testBit x = c) → (f.fullspots.headD 0).testBit a = c := by
    intro a x c ha hc
    obtain ⟨key, e1, e2⟩ := spot_key hs (headD_mem hF)
    rw [← e2 a x ha]; exact hc key e1
  constructor
  · intro hfix a x c ha hc
    rw [hfix a (by rw [h.val]; exact getElem?_some_lt ha) ((oneside_settled hs ha).2 ⟨c, hc⟩)]
    exact hval a x c ha hc
  · intro hh k hk ho
    obtain ⟨x, hx⟩ := atom_some hs hk
    obtain ⟨c, hc⟩ := (oneside_settled hs hx).1 ho
    rw [hh k x c hx hc, hval k x c hx hc]

/-- **C85.** `blightless_spotint` of a function with atoms: besides the exceptions of `bloatless_spotint`, a number with a wrong digit of a onesided
atom raises `BlightMismatchError`; for any other one digit `i` of the result is the digit of the atom `i` of `blightless_atomkeys`. -/
theorem C85_blightless_spotint (f : Boolf) (hf : Reach f) (hc : f.isConstant = false) (s : Nat) :
    (2 ^ f.valency ≤ s → f.blightlessSpotint s = .error .tooBig) ∧
    (s < 2 ^ f.valency → ¬ Obeys f s → f.blightlessSpotint s = .error .bloatMismatch) ∧
    (s < 2 ^ f.valency → Obeys f s → ¬ Heeds f s → f.blightlessSpotint s = .error .blightMismatch) ∧
    (s < 2 ^ f.valency → Obeys f s → Heeds f s → ∃ (r : Nat) (m : List Nat), f.blightlessSpotint s = .ok r ∧ f.blightlessAtomkeys = .ok m ∧
      r < 2 ^ m.length ∧ ∀ i k : Nat, m[i]? = some k → r.testBit i = s.testBit k) := by
  have h := hf.canon
  have hF := fullspots_ne_nil h (atoms_of_not_const h hc)
  obtain ⟨g, g1, _, _⟩ := bloatless_eval h
  obtain ⟨h1, h2, _⟩ := bloatlessSpotint_spec h hc s
  rw [obeys_iff h.toSound] at h2
  refine ⟨fun hs => ?_, fun hs ho => ?_, fun hs ho hn => ?_, fun hs ho hn => ?_⟩
  · unfold Boolf.blightlessSpotint; rw [h1 hs]; rfl
  · unfold Boolf.blightlessSpotint; rw [h2 hs ho]; rfl
  · exact (blightlessSpotint_spec h hc g1 s hs ((obeys_iff h.toSound s).2 ho)).2 (by rw [heeds_iff h hF]; exact hn)
  · refine ⟨_, _, (blightlessSpotint_spec h hc g1 s hs ((obeys_iff h.toSound s).2 ho)).1 ((heeds_iff h hF s).2 hn), blightlessAtomkeys_eq h g1, valB_map_lt _ _, fun i k hi => ?_⟩
    rw [testBit_valB_map, hi]; rfl

/-- **C85.** Full spots are accepted. -/
theorem C85_spotint_of_fullspots (f : Boolf) (hf : Reach f) (hc : f.isConstant = false) (s : Nat) (hs : s ∈ f.fullspots) :
    ∃ r, f.blightlessSpotint s = .ok r := by
  have h := hf.canon
  obtain ⟨g, g1, _, _⟩ := bloatless_eval h
  exact ⟨_, (blightlessSpotint_spec h hc g1 s (by rw [h.val]; exact fullspots_lt h.toSound hs) (follows_spot _ hs)).1 (fixed_spot _ hs)⟩

/-- **C85.** The constants: `blightless_spotint` of *true* raises `LengthError` (from `Binv(intval=1, length=0)`), although `bloatless_spotint` works;
that of *false* is 0. -/
theorem C85_spotint_constant (s : Nat) :
    (setConstant true).bloatlessSpotint s = .ok 1 ∧ (setConstant true).blightlessSpotint s = .error .lengthError ∧ (setConstant false).blightlessSpotint s = .ok 0 := by
  have hb : ∀ b, ∃ g, (setConstant b).bloatlessBoolf = .ok g := fun b => ⟨_, rfl⟩
  refine ⟨rfl, ?_, ?_⟩
  · unfold Boolf.blightlessSpotint
    rw [C84_spotint_constant, undeflated_all (canon_const true), reps_const (canon_const true) rfl]
    rfl
  · unfold Boolf.blightlessSpotint
    rw [C84_spotint_constant, undeflated_all (canon_const false), reps_const (canon_const false) rfl]
    obtain ⟨g, hg⟩ := hb false
    obtain ⟨t, t1, _⟩ := blight_reach (canon_const false)
    rw [blightlessAtomkeys_eq (canon_const false) hg, onesidedAtomkeys_eq (canon_const false), t1]
    rfl

/-- true at 4, 7 and 12: the atoms 0 and 1 are tied, atom 2 is onesided, the atoms 0 and 3 are not both true; 5 contradicts the first, 3 the second -/
example : ∃ f, newTT (.str ['0', '0', '0', '0', '1', '0', '0', '1', '0', '0', '0', '0', '1', '0', '0', '0']) = .ok f ∧ Reach f ∧ f.isConstant = false ∧
    f.bloatlessAtomkeysUndeflated = .ok [0, 2, 3] ∧ f.bloatlessSpotint 7 = .ok 3 ∧ f.bloatlessSpotint 12 = .ok 6 ∧ f.bloatlessSpotint 5 = .error .bloatMismatch ∧
    f.bloatlessSpotint 16 = .error .tooBig ∧ f.blightlessAtomkeys = .ok [0, 3] ∧ f.blightlessSpotint 7 = .ok 1 ∧ f.blightlessSpotint 12 = .ok 2 ∧
    f.blightlessSpotint 15 = .ok 3 ∧ f.blightlessSpotint 3 = .error .blightMismatch ∧ f.blightlessSpotint 5 = .error .bloatMismatch ∧
    ∃ g k, f.bloatlessBoolf = .ok g ∧ g.atomvals = [0, 2, 3] ∧ f.blightlessBoolf = .ok k ∧ k.atomvals = [0, 3] ∧ k.root.vector = [true, true, true, false] := by
  obtain ⟨_, e1, e2⟩ := newTT_explicit ['0', '0', '0', '0', '1', '0', '0', '1', '0', '0', '0', '0', '1', '0', '0', '0']
    [false, false, false, false, true, false, false, true, false, false, false, false, true, false, false, false] [0, 1, 2, 3] 4
    (by decide) (by decide) (by decide) (by intro n; simp; omega) (by decide) (by decide)
  refine ⟨_, e1 (by decide), e2.reach, by decide, by decide +kernel, by decide +kernel, by decide +kernel, by decide +kernel, by decide +kernel, by decide +kernel,
    by decide +kernel, by decide +kernel, by decide +kernel, by decide +kernel, by decide +kernel, ?_⟩
  exact ⟨_, _, rfl, by decide +kernel, rfl, by decide +kernel, by decide +kernel⟩

end Verif.BF
