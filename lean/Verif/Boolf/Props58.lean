import Verif.Boolf.Props57
import Verif.Boolf.Props9

/-!
# C108 and C109: representatives of male families, families with complements
-/

namespace Verif.BF
open Verif.Py Verif.BV Verif.P Verif.W Verif.SP
open Verif.A hiding Mat

/-! ## negated arguments and sums of places -/

theorem card_xor {n m : Nat} (hm : m < 2 ^ n) (p : Nat → Prop) [DecidablePred p] :
    ((Finset.range (2 ^ n)).filter fun k => p (k ^^^ m)).card = ((Finset.range (2 ^ n)).filter p).card := by
  apply Finset.card_bij' (fun k _ => k ^^^ m) (fun k _ => k ^^^ m)
  · intro k hk
    simp only [Finset.mem_filter, Finset.mem_range] at hk ⊢
    exact ⟨Nat.xor_lt_two_pow hk.1 hm, hk.2⟩
  · intro k hk
    simp only [Finset.mem_filter, Finset.mem_range] at hk ⊢
    rw [Nat.xor_assoc, Nat.xor_self, Nat.xor_zero]
    exact ⟨Nat.xor_lt_two_pow hk.1 hm, hk.2⟩
  · intro k _
    simp only [Nat.xor_assoc, Nat.xor_self, Nat.xor_zero]
  · intro k _
    simp only [Nat.xor_assoc, Nat.xor_self, Nat.xor_zero]

theorem xorSum_xor {n m : Nat} (hm : m < 2 ^ n) (v : Nat → Bool) : xorSum ((List.range (2 ^ n)).map fun k => v (k ^^^ m)) = xorSum ((List.range (2 ^ n)).map v) := by
  rw [xorSum_range, xorSum_range]
  apply decide_eq_decide.2
  unfold OddMany
  rw [card_xor hm fun k => v k = true]

/-- The sum of the true places, when some digits are negated: they are changed in the sum, if the number of true places is odd. -/
theorem xorPlaces_xor {n m : Nat} (hm : m < 2 ^ n) (v : Nat → Bool) :
    xorPlaces n (fun k => v (k ^^^ m)) = xorPlaces n v ^^^ (if xorSum ((List.range (2 ^ n)).map v) then m else 0) := by
  apply Nat.eq_of_testBit_eq
  intro b
  rw [testBit_xorPlaces, Nat.testBit_xor, testBit_xorPlaces]
  have h1 : (fun k => v (k ^^^ m) && k.testBit b) = fun k => (fun k => v k && (k ^^^ m).testBit b) (k ^^^ m) := by
    funext k
    simp only [Nat.xor_assoc, Nat.xor_self, Nat.xor_zero]
  rw [h1, xorSum_xor hm fun k => v k && (k ^^^ m).testBit b]
  have h2 : (fun k => v k && (k ^^^ m).testBit b) = fun k => ((v k && k.testBit b) ^^ (m.testBit b && v k)) := by
    funext k
    rw [Nat.testBit_xor]
    cases v k <;> cases k.testBit b <;> cases m.testBit b <;> rfl
  rw [h2, xorSum_map_xor, xorSum_and_left]
  cases xorSum ((List.range (2 ^ n)).map v) <;> simp

/-! ## root functions -/

theorem rootOf_eval {f : Boolf} (hf : Canon f) (a : Nat → Bool) : (rootOf f).eval a = f.eval fun x => a (f.atomvals.idxOf x) := by
  unfold Boolf.eval
  congr 2
  apply List.ext_getElem?
  intro k
  show ((List.range f.valency).map a)[k]? = _
  rw [List.getElem?_map, List.getElem?_map]
  by_cases hk : k < f.atomvals.length
  · rw [List.getElem?_range (by rw [hf.val]; exact hk), List.getElem?_eq_getElem hk, Option.map_some, Option.map_some, hf.toSound.nodup.idxOf_getElem]
  · rw [List.getElem?_eq_none (by rw [List.length_range, hf.val]; omega), List.getElem?_eq_none (by omega)]
    rfl

theorem eval_rootOf {f : Boolf} (hf : Canon f) (a : Nat → Bool) : f.eval a = (rootOf f).eval fun k => a (f.atomvals.getD k 0) := by
  rw [rootOf_eval hf]
  apply Boolf.eval_congr
  intro x hx
  rw [List.getD_eq_getElem?_getD, List.getElem?_eq_getElem (List.idxOf_lt_length_of_mem hx), List.getElem_idxOf]
  rfl

theorem Negated.atomvals {f g : Boolf} (hf : Reach f) (hg : Reach g) (h : Negated f g) : g.atomvals = f.atomvals := by
  obtain ⟨s, hs⟩ := h.replaced hf hg
  have hmem : ∀ x, x ∈ g.atomvals ↔ x ∈ f.atomvals := fun x => by
    rw [hs.mem hf.canon hg.canon]
    simp
  have hp : g.atomvals.Perm f.atomvals := (List.perm_ext_iff_of_nodup hg.canon.toSound.nodup hf.canon.toSound.nodup).2 hmem
  exact hp.eq_of_pairwise (fun a b _ _ h1 h2 => by omega) hg.canon.asc hf.canon.asc

/-- the root functions of functions with negated arguments -/
theorem Negated.roots {f g : Boolf} (hf : Reach f) (hg : Reach g) (h : Negated f g) :
    ∃ m < 2 ^ f.valency, ∀ k : Nat, (rootOf g).eval k.testBit = (rootOf f).eval (k ^^^ m).testBit := by
  have hA := h.atomvals hf hg
  obtain ⟨s, hs⟩ := h.replaced hf hg
  obtain ⟨m, m1, m2⟩ := digits_at (n := f.valency) (A := List.range f.valency) (r := id) (fun x hx => List.mem_range.1 hx) (fun _ _ _ _ h => h) fun k => s (f.atomvals.getD k 0)
  refine ⟨m, m1, fun k => ?_⟩
  rw [rootOf_eval hg.canon, hs.eval, rootOf_eval hf.canon, hA]
  apply Boolf.eval_congr
  intro x hx
  have hlt := List.idxOf_lt_length_of_mem hx
  rw [← hf.canon.val] at hlt
  have := m2 _ (List.mem_range.2 hlt)
  simp only [id] at this ⊢
  rw [Nat.testBit_xor, this, List.getD_eq_getElem?_getD, List.getElem?_eq_getElem (List.idxOf_lt_length_of_mem hx), List.getElem_idxOf]
  rfl

theorem male_iff {f : Boolf} (hf : Canon f) : f.isMale = xorSum ((List.range (2 ^ f.valency)).map fun k => (rootOf f).eval k.testBit) := by
  rw [xorSum_countF, countF_eval (rootOf_canon hf).toSound (n := f.valency) le_rfl]
  unfold Boolf.isMale
  apply decide_eq_decide.2
  show f.root.weight % 2 ≠ 0 ↔ 2 ^ (f.valency - f.valency) * f.root.weight % 2 = 1
  rw [Nat.sub_self, Nat.pow_zero, Nat.one_mul]
  omega

theorem Negated.male {f g : Boolf} (hf : Reach f) (hg : Reach g) (h : Negated f g) : g.isMale = f.isMale := by
  obtain ⟨m, m1, m2⟩ := h.roots hf hg
  have hv : g.valency = f.valency := by rw [hg.canon.val, hf.canon.val, h.atomvals hf hg]
  rw [male_iff hg.canon, male_iff hf.canon, hv]
  simp only [m2]
  exact xorSum_xor m1 fun k => (rootOf f).eval k.testBit

theorem rootOf_consul {f : Boolf} (hf : Canon f) : (rootOf f).consul = .ok (xorPlaces f.valency fun k => (rootOf f).eval k.testBit) := by
  rw [(C75_consul_args _).1]
  exact consul_eq (rootOf_canon hf).toSound le_rfl

/-- Specification: the sum of the true places of the root function is zero. -/
def Centred (f : Boolf) : Prop := ∃ g, f.rootBoolf = .ok g ∧ g.consul = .ok 0

theorem centred_iff {f : Boolf} (hf : Reach f) : Centred f ↔ xorPlaces f.valency (fun k => (rootOf f).eval k.testBit) = 0 := by
  unfold Centred
  rw [rootBoolf_eq hf.canon]
  constructor
  · rintro ⟨g, h1, h2⟩
    cases h1
    rw [rootOf_consul hf.canon] at h2
    exact Except.ok.inj h2
  · intro h
    exact ⟨_, rfl, by rw [rootOf_consul hf.canon, h]⟩

theorem centred_unique {f g : Boolf} (hf : Reach f) (hg : Reach g) (hm : f.isMale = true) (h : Negated f g) (h1 : Centred f) (h2 : Centred g) : g = f := by
  obtain ⟨m, m1, m2⟩ := h.roots hf hg
  have hA := h.atomvals hf hg
  have hv : g.valency = f.valency := by rw [hg.canon.val, hf.canon.val, hA]
  rw [centred_iff hf] at h1
  rw [centred_iff hg, hv] at h2
  simp only [m2] at h2
  rw [xorPlaces_xor m1 fun k => (rootOf f).eval k.testBit, h1, ← male_iff hf.canon, hm, if_pos rfl, Nat.zero_xor] at h2
  subst h2
  have hr : rootOf g = rootOf f := by
    apply (rootOf_canon hg.canon).ext_key (rootOf_canon hf.canon)
    intro key
    rw [getItem_eq (rootOf_canon hg.canon).toSound, getItem_eq (rootOf_canon hf.canon).toSound, m2, Nat.xor_zero]
  apply hg.canon.ext hf.canon
  intro a
  rw [eval_rootOf hg.canon, eval_rootOf hf.canon, hr, hA]

theorem pair_zero {g : Boolf} (hg : Canon g) (hc : g.isConstant = false) (m : Nat) : ∃ rep, g.pairMember m 0 = .ok rep ∧ Canon rep ∧ ∀ a, rep.eval a = g.eval fun x => (a x ^^ m.testBit x) := by
  obtain ⟨rep, p, h1, h2, _, _, h3⟩ := pairMember_spec hg.reach.obj.good hc m 0
  obtain ⟨_, p', _, q2, q3, q4, _, p'', e1, e2⟩ := perm_at (n := 0) (k := 0) (s := []) rfl
  rw [h2] at e1
  cases e1
  have hid : ∀ x, p.get x = x := fun x => by rw [e2]; exact q2.wf.finite_bounded q3 (by omega)
  refine ⟨rep, h1, h3.1, fun a => ?_⟩
  rw [h3.2]
  apply Boolf.eval_congr
  intro x _
  simp only [hid]
  rw [lit_slit]

theorem familyMalerep_spec {f : Boolf} (hf : Reach f) (hm : f.isMale = true) : ∃ r, f.familyMalerep = .ok r ∧ Reach r ∧ Negated f r ∧ Centred r := by
  have hcan := hf.canon
  unfold Boolf.familyMalerep
  rw [if_pos hm]
  by_cases hc : f.isConstant = true
  · rw [if_pos hc]
    refine ⟨f, rfl, hf, ⟨0, fun key => by simp⟩, (centred_iff hf).2 ?_⟩
    have h0 : f.valency = 0 := by rw [hcan.val, constant_atoms hcan hc]; rfl
    have := xorPlaces_lt f.valency fun k => (rootOf f).eval k.testBit
    rw [h0] at this ⊢
    omega
  · have hc' : f.isConstant = false := by simpa using hc
    rw [if_neg hc, rootBoolf_eq hcan]
    simp only [bind, Except.bind, pure, Except.pure]
    have hgc := rootOf_canon hcan
    rw [rootOf_consul hcan]
    obtain ⟨c, hcd⟩ : ∃ c, c = xorPlaces f.valency fun k => (rootOf f).eval k.testBit := ⟨_, rfl⟩
    have hclt : c < 2 ^ f.valency := hcd ▸ xorPlaces_lt _ _
    rw [← hcd]
    simp only
    obtain ⟨rep, r1, r2, r3⟩ := pair_zero hgc (show (rootOf f).isConstant = false from hc') c
    rw [r1]
    simp only
    have hneg : Negated (rootOf f) rep := ⟨c, fun key => by
      rw [getItem_eq r2.toSound, getItem_eq hgc.toSound, r3, xor_testBit]⟩
    have hra : rep.atomvals = List.range f.valency := hneg.atomvals hgc.reach r2.reach
    -- the function with the atoms of `f`
    have hex : ∃ r, (if f.isRoot then Except.ok rep else newTT (.binv rep.root) (some (f.atomvals.map Int.ofNat))) = .ok r ∧ Canon r ∧
        ∀ a, r.eval a = rep.eval fun k => a (f.atomvals.getD k 0) := by
      by_cases hr : f.isRoot = true
      · rw [if_pos hr]
        refine ⟨rep, rfl, r2, fun a => Boolf.eval_congr fun x hx => ?_⟩
        rw [hra, List.mem_range] at hx
        rw [(isRoot_iff hcan.toSound).1 hr, List.getD_eq_getElem?_getD, List.getElem?_range hx]
        rfl
      · rw [if_neg hr]
        have hl : rep.root.vector.length = 2 ^ f.atomvals.length := by rw [r2.len, hra, List.length_range, hcan.val]
        obtain ⟨r, h1, h2, h3⟩ := newTT_list hcan.asc hl
        rw [(C64_formats rep.root.vector _ false ((rep.root.vector.map fun b => if b then '1' else '0')) (by
          rw [List.filter_eq_self.2]
          intro x hx
          obtain ⟨b, _, rfl⟩ := List.mem_map.1 hx
          cases b <;> decide)).1] at h1
        refine ⟨r, h1, h2, fun a => ?_⟩
        rw [h3]
        unfold Boolf.eval
        rw [hra]
        congr 2
        apply List.ext_getElem?
        intro k
        rw [List.getElem?_map, List.getElem?_map]
        by_cases hk : k < f.atomvals.length
        · rw [List.getElem?_range (by rw [hcan.val]; exact hk), List.getElem?_eq_getElem hk, Option.map_some, Option.map_some, List.getD_eq_getElem?_getD, List.getElem?_eq_getElem hk]
          rfl
        · rw [List.getElem?_eq_none (by omega), List.getElem?_eq_none (by rw [List.length_range, hcan.val]; omega)]
          rfl
    obtain ⟨r, h1, h2, h3⟩ := hex
    have hnr : Negated f r := by
      obtain ⟨m, _, m2⟩ := digits_at (n := f.adicity) (A := f.atomvals) (r := id) (fun x hx => hcan.toSound.adic_lt hx) (fun _ _ _ _ h => h) fun x => c.testBit (f.atomvals.idxOf x)
      refine ⟨m, fun key => ?_⟩
      rw [getItem_eq h2.toSound, getItem_eq hcan.toSound, h3, r3, rootOf_eval hcan]
      congr 1
      apply Boolf.eval_congr
      intro x hx
      have := m2 x hx
      simp only [id] at this
      rw [Nat.testBit_xor, this, List.getD_eq_getElem?_getD, List.getElem?_eq_getElem (List.idxOf_lt_length_of_mem hx), List.getElem_idxOf]
      rfl
    refine ⟨r, h1, h2.reach, hnr, (centred_iff h2.reach).2 ?_⟩
    have hA := hnr.atomvals hf h2.reach
    have hv : r.valency = f.valency := by rw [h2.val, hcan.val, hA]
    have hre : ∀ k : Nat, (rootOf r).eval k.testBit = (rootOf f).eval (k ^^^ c).testBit := by
      intro k
      rw [rootOf_eval h2, h3, r3]
      apply Boolf.eval_congr
      intro x hx
      have hx' : x < f.atomvals.length := by rw [← hcan.val]; exact List.mem_range.1 hx
      rw [Nat.testBit_xor, hA, List.getD_eq_getElem?_getD, List.getElem?_eq_getElem hx', Option.getD_some, hcan.toSound.nodup.idxOf_getElem]
    rw [hv]
    simp only [hre]
    rw [xorPlaces_xor hclt fun k => (rootOf f).eval k.testBit, ← hcd, ← male_iff hcan, hm, if_pos rfl, Nat.xor_self]

/-- **C108.** For a function with an odd number of true places, `family_malerep` is the only function that arises by negating some arguments and has a root
function with consul 0. -/
theorem C108_family_malerep (f : Boolf) (hf : Reach f) (hm : f.root.weight % 2 = 1) :
    ∃ r, f.familyMalerep = .ok r ∧ Reach r ∧ Negated f r ∧ Centred r ∧ ∀ g, Reach g → Negated f g → Centred g → g = r := by
  have hm' : f.isMale = true := by unfold Boolf.isMale; simp [hm]
  obtain ⟨r, h1, h2, h3, h4⟩ := familyMalerep_spec hf hm'
  exact ⟨r, h1, h2, h3, h4, fun g hg hn hz => centred_unique h2 hg ((h3.male hf h2).trans hm') (h3.symm.trans hn) h4 hz⟩

/-- **C108.** Two functions with odd numbers of true places have the same `family_malerep` iff one of them arises from the other by negating some arguments. -/
theorem C108_same_family (f g : Boolf) (hf : Reach f) (hg : Reach g) (hm : f.root.weight % 2 = 1) (hm' : g.root.weight % 2 = 1) :
    f.familyMalerep = g.familyMalerep ↔ Negated f g := by
  obtain ⟨r, h1, h2, h3, h4, h5⟩ := C108_family_malerep f hf hm
  obtain ⟨s, k1, k2, k3, k4, _⟩ := C108_family_malerep g hg hm'
  rw [h1, k1]
  constructor
  · intro h
    cases h
    exact h3.trans k3.symm
  · intro h
    rw [h5 s k2 (h.trans k3) k4]

/-- **C108.** An even number of true places is a ValueError. -/
theorem C108_errors (f : Boolf) (hm : f.root.weight % 2 = 0) : f.familyMalerep = .error .valueError := by
  unfold Boolf.familyMalerep Boolf.isMale
  rw [if_neg (by simp [hm])]

/-- The conjunction of `a` and not `b` (atoms 1 and 3) has the true place 1, so `a` is negated. -/
example : ∃ f r, newTT (.str "0100".toList) (some [1, 3]) = .ok f ∧ Reach f ∧ f.root.weight % 2 = 1 ∧ f.familyMalerep = .ok r ∧ r.root.vector = [true, false, false, false] ∧
    r.atomvals = [1, 3] := by
  obtain ⟨f, h1, h2, _⟩ := newTT_list (v := [false, true, false, false]) (A := [1, 3]) (by decide) (by decide)
  have h1' := ((C64_formats [false, true, false, false] (some [1, 3]) false "0100".toList (by decide)).2.1.trans (C64_formats [false, true, false, false] (some [1, 3]) false "0100".toList (by decide)).1.symm)
  have e : newTT (.str "0100".toList) (some [1, 3]) = .ok f := h1'.trans h1
  have e' : newTT (.str "0100".toList) (some [1, 3]) = .ok ⟨⟨[false, true, false, false]⟩, [1, 3], 2, 4, false, false⟩ := by decide +kernel
  rw [e] at e'
  cases e'
  exact ⟨_, _, e, h2.reach, by decide, rfl, by decide +kernel, by decide +kernel⟩

/-! ## complements -/

theorem root_weight_card {f : Boolf} (hf : Reach f) : f.root.weight = ((Finset.range (2 ^ f.valency)).filter fun k => (rootOf f).eval k.testBit = true).card := by
  have h1 := countF_eval (rootOf_canon hf.canon).toSound (n := f.valency) le_rfl
  have h2 : countF f.valency (fun i => (rootOf f).eval i.testBit) = 2 ^ (f.valency - f.valency) * f.root.weight := h1
  rw [Nat.sub_self, Nat.pow_zero, Nat.one_mul] at h2
  rw [← h2, countF_card]

theorem Negated.truePlaces {f g : Boolf} (hf : Reach f) (hg : Reach g) (h : Negated f g) : g.root.weight = f.root.weight := by
  obtain ⟨m, m1, m2⟩ := h.roots hf hg
  have hv : g.valency = f.valency := by rw [hg.canon.val, hf.canon.val, h.atomvals hf hg]
  rw [root_weight_card hf, root_weight_card hg, hv]
  simp only [m2]
  exact card_xor m1 fun k => (rootOf f).eval k.testBit = true

theorem complement_atomvals {f g : Boolf} (hf : Canon f) (hg : Canon g) (h : ∀ a, g.eval a = !f.eval a) : g.atomvals = f.atomvals := by
  have hmem : ∀ x, x ∈ g.atomvals ↔ x ∈ f.atomvals := fun x => by
    rw [hg.mem_iff, hf.mem_iff]
    unfold Dep
    simp only [h]
    exact exists_congr fun a => by simp
  have hp : g.atomvals.Perm f.atomvals := (List.perm_ext_iff_of_nodup hg.toSound.nodup hf.toSound.nodup).2 hmem
  exact hp.eq_of_pairwise (fun a b _ _ h1 h2 => by omega) hg.asc hf.asc

theorem complement_weight {f g : Boolf} (hf : Canon f) (hg : Canon g) (h : ∀ a, g.eval a = !f.eval a) : f.root.weight + g.root.weight = f.root.length := by
  have hA := complement_atomvals hf hg h
  have hv : g.valency = f.valency := by rw [hg.val, hf.val, hA]
  rw [root_weight_card hf.reach, root_weight_card hg.reach, hv]
  have : ∀ k : Nat, (rootOf g).eval k.testBit = !(rootOf f).eval k.testBit := fun k => by rw [rootOf_eval hg, rootOf_eval hf, h, hA]
  simp only [this]
  have h2 := Finset.card_filter_add_card_filter_not (s := Finset.range (2 ^ f.valency)) (fun k => (rootOf f).eval k.testBit = true)
  simp only [Bool.not_eq_true] at h2
  simp only [Bool.not_eq_true']
  rw [h2, Finset.card_range, hf.val]
  exact hf.len.symm

/-- **C109.** `family_is_self_complementary` tells whether negating some arguments has the same effect as negating the values (if python iterates in ascending
order over sets of numbers below the adicity, which it does for an adicity up to 8). -/
theorem C109_family_is_self_complementary (order : List Nat → List Nat) (f : Boolf) (hf : Reach f) (ho : Ascending order f.adicity) :
    ∃ b, f.familyIsSelfComplementary order = .ok b ∧ (b = true ↔ ∃ m : Nat, ∀ key : Nat, f.getItem (key ^^^ m) = (f.getItem key).map not) := by
  obtain ⟨g, g1, g2, g3⟩ := complement_spec hf.canon.toSound
  have hA := complement_atomvals hf.canon g2 g3
  have hadic : g.adicity = f.adicity := by
    apply le_antisymm
    · rw [g2.adic, hA, ← hf.canon.adic]
    · rw [hf.canon.adic, ← hA, ← g2.adic]
  have hN : Negated f g ↔ ∃ m : Nat, ∀ key : Nat, f.getItem (key ^^^ m) = (f.getItem key).map not := by
    refine exists_congr fun m => forall_congr' fun key => ?_
    rw [getItem_eq g2.toSound, getItem_eq hf.canon.toSound, getItem_eq hf.canon.toSound, g3]
    exact eq_comm
  rw [← hN]
  unfold Boolf.familyIsSelfComplementary
  by_cases hw : 2 * f.root.weight = f.root.length
  · rw [if_pos hw]
    have hs := C99_same_family order f g hf g2.reach ho (by rw [hadic]; exact ho)
    obtain ⟨r, _, r1, r2, _⟩ := C99_family_minrep order f hf ho
    obtain ⟨s, _, s1, s2, _⟩ := C99_family_minrep order g g2.reach (by rw [hadic]; exact ho)
    simp only [bind, Except.bind]
    rw [r1, g1]
    simp only [s1, repEq]
    refine ⟨_, rfl, ?_⟩
    rw [← hs, r1, s1, (C48_equality r s r2 s2).2]
    simp
  · rw [if_neg hw]
    refine ⟨false, rfl, ?_⟩
    simp only [Bool.false_eq_true, false_iff]
    intro h
    have h1 := h.truePlaces hf g2.reach
    have h2 := complement_weight hf.canon g2 g3
    omega

/-- The exclusive disjunction is the complement of itself with one negated argument; the conjunction is not. -/
example : ∃ f g, newTT (.str "0110".toList) none = .ok f ∧ newTT (.str "0001".toList) none = .ok g ∧ Reach f ∧ Reach g ∧ Ascending id f.adicity ∧
    f.familyIsSelfComplementary id = .ok true ∧ g.familyIsSelfComplementary id = .ok false := by
  obtain ⟨_, e1, e2⟩ := newTT_explicit "0110".toList [false, true, true, false] [0, 1] 2 (by decide) (by decide) (by decide) (by intro n; simp; omega)
    (by decide) (by decide)
  obtain ⟨_, d1, d2⟩ := newTT_explicit "0001".toList [false, false, false, true] [0, 1] 2 (by decide) (by decide) (by decide) (by intro n; simp; omega)
    (by decide) (by decide)
  exact ⟨_, _, e1 (by decide), d1 (by decide), e2.reach, d2.reach, fun _ _ _ => rfl, by decide +kernel, by decide +kernel⟩

end Verif.BF
