import Verif.Boolf.Props17

/-!
# C83: the Boolean functions of bloat, blot and blight
-/

namespace Verif.BF
open Verif.Py Verif.BV Verif.P Verif.W Verif.SPC
open Verif.A hiding Mat

/-- **C83.** `is_bloatless` tells whether no two atoms are always equal, or always complementary, where the function is true;
`is_blotless` whether no atom has only one value there; `is_blightless` whether both hold. -/
theorem C83_bloatless_blotless (f : Boolf) (hf : Reach f) : ∃ b c, f.isBloatless = .ok b ∧ f.isBlotless = .ok c ∧ f.isBlightless = .ok (b && c) ∧
    (b = true ↔ ∀ x ∈ f.atomvals, ∀ y ∈ f.atomvals, x ≠ y →
      (∃ key : Nat, f.getItem key = .ok true ∧ key.testBit x = key.testBit y) ∧
      ∃ key : Nat, f.getItem key = .ok true ∧ key.testBit x ≠ key.testBit y) ∧
    (c = true ↔ ∀ x ∈ f.atomvals, (∃ key : Nat, f.getItem key = .ok true ∧ key.testBit x = true) ∧
      ∃ key : Nat, f.getItem key = .ok true ∧ key.testBit x = false) := by
  have h := hf.canon
  obtain ⟨s, s1, s2⟩ := bloat_reach h
  obtain ⟨s', t1, t2, t3⟩ := C83_bloat f hf
  obtain rfl : s = s' := by rw [s1] at t1; exact Except.ok.inj t1
  obtain ⟨s0, e0⟩ := new_empty_ok
  have h0 := SPC.Reach.empty e0
  obtain ⟨b, b1, b2⟩ := C61_equality _ _ s s0 s2 h0
  have hb : f.isBloatless = .ok b := by unfold Boolf.isBloatless; rw [s1, e0]; exact b1
  have hc : f.isBlotless = .ok (decide (((List.range f.valency).filter (oneside f.fullspots)).length = 0)) := by
    unfold Boolf.isBlotless; rw [onesidedAtomkeys_eq h]; rfl
  refine ⟨_, _, hb, hc, ?_, ?_, ?_⟩
  · unfold Boolf.isBlightless
    rw [hb]
    cases b
    · rfl
    · simp only [bind, Except.bind, if_pos, hc, Bool.true_and]
  · rw [b2]
    obtain ⟨_, c1, c2⟩ := C45_consequences _ s0 h0
    have z1 : ∀ a b : Int, a ≠ b → s0.areEqual a b = false ∧ s0.areComp a b = false := by
      intro a b hab
      have := no_info h0 (z := a) (fun v _ g hg => hg.elim) (b := b) hab.symm
      exact ⟨this.1, this.2.2.1⟩
    constructor
    · intro hall x hx y hy hxy
      obtain ⟨i, hi⟩ := List.mem_iff_getElem?.1 hx
      obtain ⟨j, hj⟩ := List.mem_iff_getElem?.1 hy
      have hij : i ≠ j := by rintro rfl; rw [hi] at hj; exact hxy (Option.some.inj hj)
      obtain ⟨r1, r2⟩ := t2 i j x y hij hi hj
      obtain ⟨a1, a2⟩ := hall i j (by omega)
      rw [(z1 i j (by omega)).1, ← Bool.not_eq_true, r1] at a1
      rw [(z1 i j (by omega)).2, ← Bool.not_eq_true, r2] at a2
      push Not at a1 a2
      exact ⟨a2, a1⟩
    · intro hall a b hab
      rw [(z1 a b hab).1, (z1 a b hab).2]
      by_cases ha : a < 0 ∨ (f.valency : Int) ≤ a
      · have := t3 a b ha hab.symm; exact ⟨this.1, this.2.2.1⟩
      by_cases hb' : b < 0 ∨ (f.valency : Int) ≤ b
      · have := t3 b a hb' hab; exact ⟨this.2.1, this.2.2.2⟩
      obtain ⟨i, rfl⟩ : ∃ i : Nat, a = i := ⟨a.toNat, by omega⟩
      obtain ⟨j, rfl⟩ : ∃ j : Nat, b = j := ⟨b.toNat, by omega⟩
      obtain ⟨x, hx⟩ := atom_some h.toSound (k := i) (by omega)
      obtain ⟨y, hy⟩ := atom_some h.toSound (k := j) (by omega)
      obtain ⟨r1, r2⟩ := t2 i j x y (by omega) hx hy
      have hxy : x ≠ y := by
        rintro rfl
        have := (List.getElem?_inj (getElem?_some_lt hx) h.nodup).1 (hx.trans hy.symm)
        omega
      obtain ⟨k1, k2⟩ := hall x (List.mem_of_getElem? hx) y (List.mem_of_getElem? hy) hxy
      rw [← Bool.not_eq_true, ← Bool.not_eq_true, r1, r2]
      push Not
      exact ⟨k2, k1⟩
  · rw [decide_eq_true_eq, List.length_eq_zero_iff, List.filter_eq_nil_iff]
    constructor
    · intro hall x hx
      obtain ⟨i, hi⟩ := List.mem_iff_getElem?.1 hx
      have := hall i (List.mem_range.2 (by rw [h.val]; exact getElem?_some_lt hi))
      rw [oneside_key h.toSound hi] at this
      push Not at this
      simp only [ne_eq, Bool.not_eq_true, Bool.not_eq_false] at this
      exact ⟨this.2, this.1⟩
    · intro hall i hi
      obtain ⟨x, hx⟩ := atom_some h.toSound (List.mem_range.1 hi)
      obtain ⟨⟨k1, k2, k3⟩, l1, l2, l3⟩ := hall x (List.mem_of_getElem? hx)
      rw [oneside_key h.toSound hx]
      rintro (h1 | h1)
      · rw [h1 l1 l2] at l3; cases l3
      · rw [h1 k1 k2] at k3; cases k3

/-! ### functions of set partitions with complements -/

theorem pair_tt {x y : Nat} (hxy : x < y) :
    (∃ g, newTT (.str ['1', '0', '0', '1']) (some [(x : Int), (y : Int)]) = .ok g ∧ Canon g ∧ ∀ a, g.eval a = (a x == a y)) ∧
    (∃ g, newTT (.str ['0', '1', '1', '0']) (some [(x : Int), (y : Int)]) = .ok g ∧ Canon g ∧ ∀ a, g.eval a = (a x != a y)) := by
  have hA : [x, y].Pairwise (· < ·) := by simp [hxy]
  constructor
  · obtain ⟨g, g1, g2, g3⟩ := newTT_list (v := [true, false, false, true]) (A := [x, y]) hA rfl
    have h2 := C64_formats [true, false, false, true] (some [(x : Int), (y : Int)]) false ['1', '0', '0', '1'] (by decide)
    refine ⟨g, ?_, g2, fun a => ?_⟩
    · rw [h2.2.1, ← h2.1]; exact g1
    · rw [g3]; simp only [List.map_cons, List.map_nil]; cases a x <;> cases a y <;> rfl
  · obtain ⟨g, g1, g2, g3⟩ := newTT_list (v := [false, true, true, false]) (A := [x, y]) hA rfl
    have h2 := C64_formats [false, true, true, false] (some [(x : Int), (y : Int)]) false ['0', '1', '1', '0'] (by decide)
    refine ⟨g, ?_, g2, fun a => ?_⟩
    · rw [h2.2.1, ← h2.1]; exact g1
    · rw [g3]; simp only [List.map_cons, List.map_nil]; cases a x <;> cases a y <;> rfl

/-- what the entry means -/
def PairHolds (a : Nat → Bool) (p : Int × Int × List Char) : Prop :=
  (p.2.2 = ['1', '0', '0', '1'] ∧ a p.1.toNat = a p.2.1.toNat) ∨ (p.2.2 = ['0', '1', '1', '0'] ∧ a p.1.toNat ≠ a p.2.1.toNat)

theorem pairLoop_spec (l : List (Int × Int × List Char)) (g : Boolf) (hg : Canon g)
    (hl : ∀ p ∈ l, 0 ≤ p.1 ∧ p.1 < p.2.1 ∧ (p.2.2 = ['1', '0', '0', '1'] ∨ p.2.2 = ['0', '1', '1', '0'])) :
    ∃ k, pairLoop l g = .ok k ∧ Canon k ∧ ∀ a, k.eval a = true ↔ g.eval a = true ∧ ∀ p ∈ l, PairHolds a p := by
  induction l generalizing g with
  | nil => exact ⟨g, rfl, hg, fun a => by simp⟩
  | cons p l ih =>
    obtain ⟨x, y, tt⟩ := p
    obtain ⟨h1, h2, h3⟩ := hl _ (by simp : (x, y, tt) ∈ (x, y, tt) :: l)
    simp only at h1 h2 h3
    obtain ⟨i, rfl⟩ : ∃ i : Nat, x = i := ⟨x.toNat, by omega⟩
    obtain ⟨j, rfl⟩ : ∃ j : Nat, y = j := ⟨y.toNat, by omega⟩
    obtain ⟨⟨e, e1, e2, e3⟩, d, d1, d2, d3⟩ := pair_tt (x := i) (y := j) (by omega)
    have hq : ∃ q, newTT (.str tt) (some [(i : Int), (j : Int)]) = .ok q ∧ Canon q ∧ ∀ a, q.eval a = true ↔ PairHolds a ((i : Int), (j : Int), tt) := by
      rcases h3 with rfl | rfl
      · refine ⟨e, e1, e2, fun a => ?_⟩
        rw [e3]; simp [PairHolds]
      · refine ⟨d, d1, d2, fun a => ?_⟩
        rw [d3]; simp [PairHolds]
    obtain ⟨q, q1, q2, q3⟩ := hq
    obtain ⟨r, r1, r2, r3⟩ := and_spec hg.toSound q2.toSound
    obtain ⟨k, k1, k2, k3⟩ := ih r r2 (fun p hp => hl p (by simp [hp]))
    refine ⟨k, ?_, k2, fun a => ?_⟩
    · unfold pairLoop
      rw [q1]
      simp only [bind, Except.bind]
      rw [r1]
      exact k1
    · rw [k3, r3, Bool.and_eq_true, q3]
      simp [and_assoc]

theorem consecutive_iff (v : Int → Bool) (B : List Int) : (∀ p ∈ B.zip B.tail, v p.1 = v p.2) ↔ ∀ x ∈ B, ∀ y ∈ B, v x = v y := by
  induction B with
  | nil => simp
  | cons b B ih =>
    cases B with
    | nil => simp
    | cons c B =>
      rw [List.tail_cons] at ih ⊢
      rw [List.zip_cons_cons, List.forall_mem_cons, ih]
      simp only
      constructor
      · rintro ⟨h1, h2⟩
        have h3 : ∀ x ∈ b :: c :: B, v x = v c := by
          intro x hx
          rcases List.mem_cons.1 hx with rfl | hx
          · exact h1
          · exact h2 x hx c (by simp)
        intro x hx y hy
        rw [h3 x hx, h3 y hy]
      · intro h
        exact ⟨h b (by simp) c (by simp), fun x hx y hy => h x (by simp [hx]) y (by simp [hy])⟩

theorem mem_zip_tail {B : List Int} (hB : B.Pairwise (· < ·)) {p : Int × Int} (hp : p ∈ B.zip B.tail) : p.1 ∈ B ∧ p.2 ∈ B ∧ p.1 < p.2 := by
  induction B with
  | nil => simp at hp
  | cons b B ih =>
    cases B with
    | nil => simp at hp
    | cons c B =>
      rw [List.tail_cons, List.zip_cons_cons] at hp
      rcases List.mem_cons.1 hp with rfl | hp
      · exact ⟨by simp, by simp, List.rel_of_pairwise_cons hB (by simp)⟩
      · obtain ⟨h1, h2, h3⟩ := ih hB.of_cons (by rw [List.tail_cons]; exact hp)
        exact ⟨by simp [h1], by simp [h2], h3⟩

theorem newTT_true : newTT (.bool true) = .ok (setConstant true) := rfl

/-- the Boolean function of a set partition with complements -/
theorem compBoolf_spec {G : Fact → Prop} {s : SetPartComp} (h : SPC.Reach G s)
    (hn : ∀ z b : Int, z < 0 → b ≠ z → s.areEqual z b = false ∧ s.areComp z b = false) :
    ∃ g, compBoolf s = .ok g ∧ Canon g ∧ ∀ a, g.eval a = true ↔ Models G fun z => a z.toNat := by
  obtain ⟨hi, hs⟩ := reach_inv h
  have hblock : ∀ B ∈ s.equalPart.blocks, ∀ z ∈ B, 0 ≤ z := by
    intro B hB z hz
    by_contra hc
    have h2 := hi.wf.canon.two B hB
    have hd : B.Nodup := (hi.wf.canon.lt B hB).imp (fun h => ne_of_lt h)
    obtain ⟨b, hb, hbz⟩ : ∃ b ∈ B, b ≠ z := by
      by_contra hall
      push Not at hall
      have : B.length ≤ 1 := by
        have := (List.subperm_of_subset hd (l₂ := [z]) (fun x hx => by simp [hall x hx])).length_le
        simpa using this
      omega
    have := (hn z b (by omega) hbz).1
    rw [← Bool.not_eq_true, areEqual_iff hi.wf] at this
    exact this ⟨B, hB, hz, hb⟩
  have hpair : ∀ ab ∈ s.compPairs, 0 ≤ ab.1 := by
    intro ab hab
    by_contra hc
    have := (hn ab.1 ab.2 (by omega) (by have := hi.lt ab hab; omega)).2
    rw [← Bool.not_eq_true, areComp_iff hi.wf, (hi.reps ab hab).1, (hi.reps ab hab).2, pair_of_lt (hi.lt ab hab)] at this
    exact this hab
  have hmem : ∀ p, p ∈ pairTables s ↔ (∃ B ∈ s.equalPart.blocks, ∃ q ∈ B.zip B.tail, p = (q.1, q.2, ['1', '0', '0', '1'])) ∨
      ∃ ab ∈ s.compPairs, p = (ab.1, ab.2, ['0', '1', '1', '0']) := by
    intro p
    unfold pairTables
    rw [List.mem_append, List.mem_flatMap, List.mem_map]
    simp only [List.mem_map, eq_comm]
  obtain ⟨k, k1, k2, k3⟩ := pairLoop_spec (pairTables s) (setConstant true) (canon_const true) (by
    intro p hp
    rcases (hmem p).1 hp with ⟨B, hB, q, hq, rfl⟩ | ⟨ab, hab, rfl⟩
    · obtain ⟨m1, m2, m3⟩ := mem_zip_tail (hi.wf.canon.lt B hB) hq
      exact ⟨hblock B hB _ m1, m3, Or.inl rfl⟩
    · exact ⟨hpair ab hab, hi.lt ab hab, Or.inr rfl⟩)
  refine ⟨k, ?_, k2, fun a => ?_⟩
  · unfold compBoolf
    rw [newTT_true]
    exact k1
  · rw [k3, ← hs, eval_const]
    unfold Sat
    constructor
    · rintro ⟨_, hall⟩
      constructor
      · rintro x y (rfl | ⟨B, hB, hx, hy⟩)
        · rfl
        · refine (consecutive_iff (fun z => a z.toNat) B).1 (fun q hq => ?_) x hx y hy
          rcases hall _ ((hmem _).2 (Or.inl ⟨B, hB, q, hq, rfl⟩)) with ⟨_, h1⟩ | ⟨h1, _⟩
          · exact h1
          · exact absurd h1 (by simp)
      · intro ab hab
        rcases hall _ ((hmem _).2 (Or.inr ⟨ab, hab, rfl⟩)) with ⟨h1, _⟩ | ⟨_, h1⟩
        · exact absurd h1 (by simp)
        · exact h1
    · rintro ⟨h1, h2⟩
      refine ⟨rfl, fun p hp => ?_⟩
      rcases (hmem p).1 hp with ⟨B, hB, q, hq, rfl⟩ | ⟨ab, hab, rfl⟩
      · obtain ⟨m1, m2, _⟩ := mem_zip_tail (hi.wf.canon.lt B hB) hq
        exact Or.inl ⟨rfl, h1 _ _ (Or.inr ⟨B, hB, m1, m2⟩)⟩
      · exact Or.inr ⟨rfl, h2 ab hab⟩

/-- the assignment of the atomkeys that belongs to an assignment of the atoms -/
def keyVal (f : Boolf) (a : Nat → Bool) (z : Int) : Bool := a (f.atomvals.getD z.toNat 0)

theorem keyVal_nat {f : Boolf} {k x : Nat} (hk : f.atomvals[k]? = some x) (a : Nat → Bool) : keyVal f a k = a x := by
  unfold keyVal
  rw [Int.toNat_natCast, List.getD_eq_getElem?_getD, hk]; rfl

theorem bloatBoolf_spec {f : Boolf} (h : Canon f) :
    ∃ g, f.bloatBoolf = .ok g ∧ Canon g ∧ (∀ a, g.eval a = true ↔ Models (· ∈ bloatFacts f.fullspots f.valency) (keyVal f a)) := by
  obtain ⟨s, s1, s2⟩ := bloat_reach h
  obtain ⟨w, w1, w2, w3⟩ := compBoolf_spec s2 (fun z b hz hb => by
    have := no_info s2 (fun v hv => bloat_flip (Or.inl hz) v hv) hb
    exact ⟨this.1, this.2.2.1⟩)
  -- atoms of the function of positions are positions
  have hlt : ∀ k ∈ w.atomvals, k < f.valency := by
    intro k hk
    by_contra hc
    obtain ⟨a, ha⟩ := (w2.mem_iff k).1 hk
    apply ha
    rw [Bool.eq_iff_iff, w3, w3]
    have key : ∀ v v' : Nat → Bool, (∀ i < f.valency, v i = v' i) → Models (· ∈ bloatFacts f.fullspots f.valency) (fun z => v z.toNat) →
        Models (· ∈ bloatFacts f.fullspots f.valency) (fun z => v' z.toNat) := by
      intro v v' hvv hm g hg
      refine Holds_congr ?_ (hm g hg)
      obtain ⟨i, j, hij, hj, _, rfl⟩ := mem_bloatFacts.1 hg
      intro c d hcd
      unfold bloatFact at hcd
      split at hcd
      · rcases hcd with hcd | hcd <;> cases hcd
        exact ⟨hvv i (by omega), hvv j hj⟩
      · rcases hcd with hcd | hcd <;> cases hcd
        exact ⟨hvv i (by omega), hvv j hj⟩
    have hu : ∀ p : Bool, ∀ i < f.valency, upd a k p i = a i := by
      intro p i hi
      unfold upd
      rw [if_neg (by omega)]
    exact ⟨key _ _ (fun i hi => by rw [hu, hu] <;> exact hi), key _ _ (fun i hi => by rw [hu, hu] <;> exact hi)⟩
  have hmap : (w.atomvals.mapM fun k : Nat => item f.atomvals k) = .ok (w.atomvals.map fun k => f.atomvals.getD k 0) := by
    apply mapM_ok
    intro k hk
    have := hlt k hk
    rw [h.val] at this
    rw [item_ok (List.getElem?_eq_getElem this), List.getD_eq_getElem?_getD, List.getElem?_eq_getElem this]; rfl
  have hasc : (w.atomvals.map fun k => f.atomvals.getD k 0).Pairwise (· < ·) := by
    rw [List.pairwise_map]
    refine List.Pairwise.imp_of_mem ?_ w2.asc
    intro i j hi hj hij
    have h1 := hlt i hi; have h2 := hlt j hj
    rw [h.val] at h1 h2
    have := getElem_lt h.asc (List.getElem?_eq_getElem h1) (List.getElem?_eq_getElem h2) hij
    simpa [List.getD_eq_getElem?_getD, h1, h2] using this
  obtain ⟨g, g1, g2, g3⟩ := ttDeflated_asc (b := w.root) hasc (by rw [List.length_map]; exact w2.len)
  refine ⟨g, ?_, g2, fun a => ?_⟩
  · unfold Boolf.bloatBoolf
    rw [s1]
    simp only [bind, Except.bind]
    rw [w1]
    simp only
    rw [hmap]
    exact (newTT_binv _ _).trans g1
  · have : g.eval a = w.eval fun k => a (f.atomvals.getD k 0) := by
      rw [g3]
      unfold Boolf.eval
      rw [List.map_map]; rfl
    rw [this, w3]
    rfl

/-- **C83.** `bloat_boolf` is true where all the equalities and complementarities hold that the atoms have wherever the function is true. -/
theorem C83_bloat_boolf (f : Boolf) (hf : Reach f) : ∃ g, f.bloatBoolf = .ok g ∧ Reach g ∧
    ∀ key : Nat, g.getItem key = .ok true ↔ ∀ x ∈ f.atomvals, ∀ y ∈ f.atomvals,
      ((∀ key' : Nat, f.getItem key' = .ok true → key'.testBit x = key'.testBit y) → key.testBit x = key.testBit y) ∧
      ((∀ key' : Nat, f.getItem key' = .ok true → key'.testBit x ≠ key'.testBit y) → key.testBit x ≠ key.testBit y) := by
  have h := hf.canon
  obtain ⟨g, g1, g2, g3⟩ := bloatBoolf_spec h
  refine ⟨g, g1, g2.reach, fun key => ?_⟩
  rw [getItem_true g2.toSound, g3]
  rcases spot_or_none h with hz | ⟨s, hs⟩
  · have hnil : f.atomvals = [] := by rw [← List.length_eq_zero_iff, ← h.val, hz]
    rw [hnil, hz]
    simp [(no_facts f.fullspots).1, Models]
  · rw [models_bloat (List.ne_nil_of_mem hs)]
    constructor
    · intro hall x hx y hy
      obtain ⟨i, hi⟩ := List.mem_iff_getElem?.1 hx
      obtain ⟨j, hj⟩ := List.mem_iff_getElem?.1 hy
      have := hall i j (by rw [h.val]; exact getElem?_some_lt hi) (by rw [h.val]; exact getElem?_some_lt hj)
      rwa [keyVal_nat hi, keyVal_nat hj, (eqOn_key h.toSound hi hj).1, (eqOn_key h.toSound hi hj).2] at this
    · intro hall i j hi hj
      obtain ⟨x, hx⟩ := atom_some h.toSound hi
      obtain ⟨y, hy⟩ := atom_some h.toSound hj
      rw [keyVal_nat hx, keyVal_nat hy, (eqOn_key h.toSound hx hy).1, (eqOn_key h.toSound hx hy).2]
      exact hall x (List.mem_of_getElem? hx) y (List.mem_of_getElem? hy)

theorem atom_tt (x : Nat) (u : Bool) : ∃ g, newTT (.str (if u then ['0', '1'] else ['1', '0'])) (some [(x : Int)]) = .ok g ∧ Canon g ∧ ∀ a, g.eval a = (a x == u) := by
  have hA : [x].Pairwise (· < ·) := by simp
  obtain ⟨g, g1, g2, g3⟩ := newTT_list (v := [!u, u]) (A := [x]) hA rfl
  have h2 := C64_formats [!u, u] (some [(x : Int)]) false (if u then ['0', '1'] else ['1', '0']) (by cases u <;> decide)
  refine ⟨g, ?_, g2, fun a => ?_⟩
  · rw [h2.2.1, ← h2.1]; exact g1
  · rw [g3]; simp only [List.map_cons, List.map_nil]; cases a x <;> cases u <;> rfl

theorem blotBoolfLoop_spec {f : Boolf} (h : Sound f) (d : Dict Nat Bool) (l : List Nat) (u : Nat → Bool) (hl : ∀ k ∈ l, k < f.valency ∧ d.get? k = some (u k))
    (g : Boolf) (hg : Canon g) :
    ∃ r, blotBoolfLoop f d l g = .ok r ∧ Canon r ∧ ∀ a, r.eval a = true ↔ g.eval a = true ∧ ∀ k ∈ l, keyVal f a k = u k := by
  induction l generalizing g with
  | nil => exact ⟨g, rfl, hg, by simp⟩
  | cons k l ih =>
    obtain ⟨h1, h2⟩ := hl k (by simp)
    obtain ⟨x, hx⟩ := atom_some h h1
    obtain ⟨q, q1, q2, q3⟩ := atom_tt x (u k)
    obtain ⟨r, r1, r2, r3⟩ := and_spec hg.toSound q2.toSound
    obtain ⟨t, t1, t2, t3⟩ := ih (fun k hk => hl k (by simp [hk])) r r2
    refine ⟨t, ?_, t2, fun a => ?_⟩
    · unfold blotBoolfLoop
      rw [h2]
      simp only [item_ok hx, bind, Except.bind]
      rw [q1]
      simp only
      rw [r1]
      exact t1
    · rw [t3, r3, q3, Bool.and_eq_true, beq_iff_eq, List.forall_mem_cons, keyVal_nat hx, and_assoc]

theorem blotBoolf_spec {f : Boolf} (h : Canon f) : ∃ g, f.blotBoolf = .ok g ∧ Canon g ∧
    ∀ a, g.eval a = true ↔ ∀ k < f.valency, oneside f.fullspots k = true → keyVal f a k = has1 f.fullspots k true := by
  have hkeys : Dict.keys (((List.range f.valency).filter (oneside f.fullspots)).map fun k => (k, has1 f.fullspots k true)) =
      (List.range f.valency).filter (oneside f.fullspots) := by unfold Dict.keys; rw [List.map_map]; exact List.map_id _
  obtain ⟨r, r1, r2, r3⟩ := blotBoolfLoop_spec h.toSound (((List.range f.valency).filter (oneside f.fullspots)).map fun k => (k, has1 f.fullspots k true))
    ((List.range f.valency).filter (oneside f.fullspots)) (fun k => has1 f.fullspots k true) (by
      intro k hk
      refine ⟨List.mem_range.1 (List.mem_filter.1 hk).1, ?_⟩
      apply Dict.mem_get? (by rw [hkeys]; exact List.Nodup.filter _ List.nodup_range)
      exact List.mem_map.2 ⟨k, hk, rfl⟩) (setConstant true) (canon_const true)
  refine ⟨r, ?_, r2, fun a => ?_⟩
  · unfold Boolf.blotBoolf
    rw [onesidedIsUniverse_eq h, onesidedAtomkeys_eq h, newTT_true]
    exact r1
  · rw [r3, eval_const]
    simp only [List.mem_filter, List.mem_range, true_and, and_imp]

/-- **C83.** `blot_boolf` is true where all the atoms with only one value, wherever the function is true, have this value. -/
theorem C83_blot_boolf (f : Boolf) (hf : Reach f) : ∃ g, f.blotBoolf = .ok g ∧ Reach g ∧
    ∀ key : Nat, g.getItem key = .ok true ↔ ∀ x ∈ f.atomvals, ∀ c : Bool,
      (∀ key' : Nat, f.getItem key' = .ok true → key'.testBit x = c) → key.testBit x = c := by
  have h := hf.canon
  obtain ⟨g, g1, g2, g3⟩ := blotBoolf_spec h
  refine ⟨g, g1, g2.reach, fun key => ?_⟩
  rw [getItem_true g2.toSound, g3]
  constructor
  · intro hall x hx c hc
    obtain ⟨i, hi⟩ := List.mem_iff_getElem?.1 hx
    obtain ⟨s, hs⟩ := List.exists_mem_of_ne_nil _ (spots_of_atom h hi)
    obtain ⟨key0, k1, k2⟩ := spot_key h.toSound hs
    have := hall i (by rw [h.val]; exact getElem?_some_lt hi) ((oneside_key h.toSound hi).2 (by cases c; exact Or.inr hc; exact Or.inl hc))
    rw [keyVal_nat hi] at this
    rw [this, Bool.eq_iff_iff, has1_key h.toSound hi]
    constructor
    · rintro ⟨key', e1, e2⟩
      rw [← e2, hc key' e1]
    · intro e
      exact ⟨key0, k1, by rw [hc key0 k1, e]⟩
  · intro hall i hi ho
    obtain ⟨x, hx⟩ := atom_some h.toSound hi
    rw [keyVal_nat hx]
    obtain ⟨s, hs⟩ := List.exists_mem_of_ne_nil _ (spots_of_atom h hx)
    obtain ⟨key0, k1, k2⟩ := spot_key h.toSound hs
    rcases (oneside_key h.toSound hx).1 ho with hc | hc
    · rw [hall x (List.mem_of_getElem? hx) true hc, eq_comm, has1_key h.toSound hx]
      exact ⟨key0, k1, hc key0 k1⟩
    · rw [hall x (List.mem_of_getElem? hx) false hc, eq_comm, ← Bool.not_eq_true, has1_key h.toSound hx]
      rintro ⟨key', e1, e2⟩
      rw [hc key' e1] at e2; cases e2

/-- **C83.** `blight_boolf` is the conjunction of the two; all three are implied by the function. -/
theorem C83_blight_boolf (f : Boolf) (hf : Reach f) : ∃ g g1 g2, f.blightBoolf = .ok g ∧ f.bloatBoolf = .ok g1 ∧ f.blotBoolf = .ok g2 ∧ Reach g ∧
    (∀ key : Nat, g.getItem key = .ok true ↔ g1.getItem key = .ok true ∧ g2.getItem key = .ok true) ∧
    ∀ key : Nat, f.getItem key = .ok true → g.getItem key = .ok true := by
  obtain ⟨g1, b1, b2, b3⟩ := C83_bloat_boolf f hf
  obtain ⟨g2, c1, c2, c3⟩ := C83_blot_boolf f hf
  obtain ⟨g, d1, d2, d3⟩ := and_spec b2.canon.toSound c2.canon.toSound
  have hand : ∀ key : Nat, g.getItem key = .ok true ↔ g1.getItem key = .ok true ∧ g2.getItem key = .ok true := by
    intro key
    rw [getItem_true d2.toSound, getItem_true b2.canon.toSound, getItem_true c2.canon.toSound, d3, Bool.and_eq_true]
  refine ⟨g, g1, g2, ?_, b1, c1, d2.reach, hand, fun key hk => ?_⟩
  · unfold Boolf.blightBoolf
    rw [b1, c1]
    exact d1
  · rw [hand, b3, c3]
    exact ⟨fun x _ y _ => ⟨fun h => h key hk, fun h => h key hk⟩, fun x _ c h => h key hk⟩

/-- The disjunction of `0 & 1 & 2` and `~0 & ~1 & 2`: the atoms 0 and 1 are equal, the atom 2 is true. -/
example : ∃ f, newTT (.str ['0', '0', '0', '0', '1', '0', '0', '1']) = .ok f ∧ Reach f ∧ f.isBlightless = .ok false ∧ f.onesidedAtomkeys = .ok [2] ∧
    ∃ s, f.bloat = .ok s ∧ s.areEqual 0 1 = true ∧ s.areEqual 0 2 = false := by
  obtain ⟨_, e1, e2⟩ := newTT_explicit ['0', '0', '0', '0', '1', '0', '0', '1'] [false, false, false, false, true, false, false, true] [0, 1, 2] 3
    (by decide) (by decide) (by decide) (by intro n; simp; omega) (by decide) (by decide)
  refine ⟨_, e1 (by decide), e2.reach, ?_, by rw [onesidedAtomkeys_eq e2]; decide, ?_⟩
  · obtain ⟨b, c, _, _, h3, _, h5⟩ := C83_bloatless_blotless _ e2.reach
    rw [h3]
    have : c = false := by
      rw [← Bool.not_eq_true, h5]
      intro hall
      obtain ⟨_, key, k1, k2⟩ := hall 2 (by simp)
      obtain ⟨s, hs, k3⟩ := key_spot e2.toSound k1
      have := k3 2 2 rfl
      rw [k2] at this
      revert this
      have h4 : s ∈ [4, 7] := hs
      simp at h4
      rcases h4 with rfl | rfl <;> decide
    rw [this, Bool.and_false]
  · obtain ⟨s, s1, s2⟩ := bloat_reach e2
    have hs := fun a b ha hb => bloat_sem (by decide) s2 (a := a) (b := b) ha hb
    refine ⟨s, s1, ((hs 0 1 (by decide) (by decide)).1 (by decide)).2 ?_, ?_⟩
    · unfold EqOn; decide
    · rw [← Bool.not_eq_true]
      have := (hs 0 2 (by decide) (by decide)).1 (by decide)
      rw [show ((0 : Nat) : Int) = 0 from rfl, show ((2 : Nat) : Int) = 2 from rfl] at this
      rw [this]
      unfold EqOn; decide

end Verif.BF
