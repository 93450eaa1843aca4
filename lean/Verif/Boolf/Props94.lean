import Verif.Boolf.Props15

/-!
# Further theorems about objects that may be inflated

Equality (boolf/__init__.py:168-169) compares the root and the atoms.  It is modelled as `Boolf.eq` in `Verif.Boolf.Model`.
-/

namespace Verif.BF
open Verif.Py Verif.BV Verif.P Verif.W
open Verif.A hiding Mat

/-- **C66.** Two objects are equal iff they have the same atoms and the same values; then all their attributes are the same. -/
theorem C66_equality (f g : Boolf) (hf : Obj f) (hg : Obj g) :
    (f.eq g = true ↔ f.atomvals = g.atomvals ∧ ∀ key : Nat, f.getItem key = g.getItem key) ∧ (f.eq g = true ↔ f = g) := by
  have hF := hf.good
  have hG := hg.good
  have h1 : f.atomvals = g.atomvals → (∀ a, f.eval a = g.eval a) → f = g := by
    intro hA he
    have hr := root_eq_of_eval hF.toSound hG.toSound hA he
    have hd := adicity_eq hF.toSound hG.toSound hA
    have hv : f.valency = g.valency := by rw [hF.val, hG.val, hA]
    have hc : f.isConstant = g.isConstant := by rw [Bool.eq_iff_iff, hF.const, hG.const, hA]
    have hi : f.isInflated = g.isInflated := by
      have a1 := hF.flag
      have a2 := hG.flag
      unfold FlagOk at a1 a2
      rw [Bool.eq_iff_iff, a1, a2, hA, funext he]
    cases f; cases g
    simp only at *
    subst hA hr hd hv hc hi
    rfl
  have h2 : f.eq g = true → f = g := by
    intro h
    obtain ⟨hr, hA⟩ := (Boolf.eq_iff f g).1 h
    apply h1 hA
    intro a
    unfold Boolf.eval
    rw [hr, hA]
  have h3 : f = g → f.eq g = true := by rintro rfl; exact (Boolf.eq_iff f f).2 ⟨rfl, rfl⟩
  refine ⟨⟨fun h => by rw [h2 h]; exact ⟨rfl, fun _ => rfl⟩, ?_⟩, h2, h3⟩
  rintro ⟨hA, he⟩
  apply h3
  apply h1 hA
  intro a
  obtain ⟨key, k1, k2⟩ := eval_key f g hF.toSound hG.toSound a
  have := he key
  rw [getItem_eq hF.toSound, getItem_eq hG.toSound] at this
  rw [k1, k2]
  exact Except.ok.inj this

/-- **C66.** An inflated object is not equal to an object that is not inflated, so not to the canonical object with the same values. -/
theorem C66_inflated_ne (f g : Boolf) (hf : Obj f) (hg : Obj g) (h : f.isInflated = true) (h' : g.isInflated = false) :
    f.eq g = false ∧ g.eq f = false := by
  have hne : f ≠ g := by rintro rfl; rw [h] at h'; cases h'
  exact ⟨Bool.eq_false_iff.2 fun e => hne ((C66_equality f g hf hg).2.1 e),
    Bool.eq_false_iff.2 fun e => hne ((C66_equality g f hg hf).2.1 e).symm⟩

/-- objects as in the hypotheses of `C66_inflated_ne`: the second atom as a table of two arguments, and in canonical form -/
example : ∃ f g, Obj f ∧ Obj g ∧ f.isInflated = true ∧ g.isInflated = false ∧ ∀ key : Nat, f.getItem key = g.getItem key := by
  obtain ⟨f, _, f1, f2, _, f3⟩ := C66_inflated_differs
  obtain ⟨g, _, g1, g2, g3⟩ := C66_deflated f f1
  refine ⟨f, g, f1, g1.obj, f2, g1.canon.infl, fun key => (g2 key).symm⟩

/-! ## C50, C72, C81 for inflated objects -/

/-- **C50.** The twin of an object that may be inflated is canonical, and its twin has the values of the object (but is not inflated). -/
theorem C50_twin_inflated (f : Boolf) (hf : Obj f) (n : Nat) (hn : f.adicity ≤ n) :
    ∃ g f', f.twin (some (n : Int)) = .ok g ∧ Reach g ∧ g.adicity ≤ n ∧
      (∀ j < 2 ^ n, g.getItem j = .ok (decide (OddMany (2 ^ n) fun i => f.getItem i = .ok true ∧ i &&& j = i))) ∧
      g.twin (some (n : Int)) = .ok f' ∧ Reach f' ∧ (∀ key : Nat, f'.getItem key = f.getItem key) ∧
      (f' = f ↔ f.isInflated = false) := by
  have h := hf.good.toSound
  obtain ⟨g, g1, g2, g3, g4, g5⟩ := twin_spec h hn
  obtain ⟨k, k1, k2, k3, k4, k5⟩ := twin_spec g2.toSound g4
  have hev : ∀ key : Nat, k.getItem key = f.getItem key := by
    intro key
    have hj := Nat.mod_lt key (Nat.two_pow_pos n)
    rw [getItem_eq k2.toSound, getItem_eq h, ← eval_mod k2.toSound k4, ← eval_mod h hn, k5 _ hj, subXor_congr g5, subXor_subXor n _ hj]
  refine ⟨g, k, g1, g3, g4, fun j hj => ?_, k1, k3, hev, ?_, fun hi => ?_⟩
  · rw [getItem_eq g2.toSound, g5 j hj, subXor_odd]
    refine congrArg Except.ok (decide_eq_decide.2 (oddMany_congr fun i _ => ?_))
    rw [getItem_eq h, Except.ok.injEq]
  · rintro rfl
    exact k2.infl
  · exact k2.ext_key (hf.good.canon hi) hev

/-- **C50.** The Zhegalkin index of an object that may be inflated; the function built from it has the same values, but is not inflated. -/
theorem C50_zhe_inflated (f : Boolf) (hf : Obj f) :
    ∃ (z : Nat) (g : Boolf), f.zhe = .ok z ∧ z < 2 ^ 2 ^ f.adicity ∧
      (∀ key : Nat, f.getItem key = .ok (decide (OddMany (2 ^ f.adicity) fun k => z.testBit k = true ∧ k &&& key = k))) ∧
      new { zhe := some (z : Int) } = .ok g ∧ Reach g ∧ (∀ key : Nat, g.getItem key = f.getItem key) ∧ (g = f ↔ f.isInflated = false) := by
  have h := hf.good.toSound
  obtain ⟨g, _, g2, g3, g4⟩ := C66_deflated f hf
  have hs := g2.canon.toSound
  have hev : ∀ i : Nat, g.eval i.testBit = f.eval i.testBit := by
    intro i
    have := g3 i
    rwa [getItem_eq hs, getItem_eq h, Except.ok.injEq] at this
  obtain ⟨z, z1, z2, z3⟩ := zhe_spec h
  have anf : ∀ key : Nat, f.eval key.testBit = subXor f.adicity z.testBit key := by
    intro key
    rw [← subXor_mod, ← eval_mod h le_rfl, subXor_congr z3, subXor_subXor _ _ (Nat.mod_lt key (Nat.two_pow_pos f.adicity))]
  have hz : g.zhe = f.zhe := by
    obtain ⟨y, y1, y2, y3⟩ := zhe_any hs (le_max_left g.adicity f.adicity)
    obtain ⟨y', y4, y5, y6⟩ := zhe_any h (le_max_right g.adicity f.adicity)
    rw [y1, y4]
    refine congrArg Except.ok (Nat.eq_of_testBit_eq fun i => ?_)
    by_cases hi : i < 2 ^ max g.adicity f.adicity
    · rw [y3 i hi, y6 i hi, subXor_congr (fun i _ => hev i)]
    · rw [testBit_of_lt y2 (by omega), testBit_of_lt y5 (by omega)]
  obtain ⟨z', e1, _, _, e2⟩ := C50_zhe g g2
  rw [hz, z1] at e1
  obtain rfl := Except.ok.inj e1
  exact ⟨z, g, z1, z2, fun key => by rw [getItem_eq h, anf, subXor_odd], e2, g2, g3, g4⟩

/-- **C72.** `is_noble` is False for all inflated objects, also if the object and its twin have the same values. -/
theorem C72_inflated (f : Boolf) (hf : Obj f) (hi : f.isInflated = true) (n : Nat) (hn : f.adicity ≤ n) : f.isNoble (some (n : Int)) = .ok false := by
  obtain ⟨g, g1, g2, g3, _⟩ := twin_spec hf.good.toSound hn
  unfold Boolf.isNoble
  simp only [Option.getD_some, g1, bind, Except.bind, pure, Except.pure]
  rw [(C66_inflated_ne f g hf g3.obj hi g2.infl).1]

/-- **C72.** An inflated object that has the values of its twin, but is not noble: the contradiction with a superfluous atom. -/
theorem C72_inflated_twin : ∃ f g, newTT (.list [0, 0]) (some [0]) none true = .ok f ∧ Obj f ∧ f.isInflated = true ∧ f.adicity = 1 ∧
    f.twin (some (1 : Int)) = .ok g ∧ (∀ key : Nat, g.getItem key = f.getItem key) ∧ f.isNoble (some (1 : Int)) = .ok false := by
  have e : newTT (.list [0, 0]) (some [0]) none true = .ok ⟨⟨[false, false]⟩, [0], 1, 1, false, true⟩ := by decide
  have ho : Obj ⟨⟨[false, false]⟩, [0], 1, 1, false, true⟩ :=
    .new { tt := some (.list [0, 0]), av := some [0], skip := true } _ e (by simp [Args.entries])
  have hev : ∀ a, (⟨⟨[false, false]⟩, [0], 1, 1, false, true⟩ : Boolf).eval a = false := by
    intro a
    unfold Boolf.eval
    simp only [List.map_cons, List.map_nil]
    cases a 0 <;> rfl
  obtain ⟨g, g1, g2, g3, g4, g5⟩ := twin_spec ho.good.toSound (n := 1) (le_refl 1)
  refine ⟨_, g, e, ho, rfl, rfl, g1, fun key => ?_, C72_inflated _ ho rfl 1 le_rfl⟩
  have hj := Nat.mod_lt key (Nat.two_pow_pos 1)
  rw [getItem_eq g2.toSound, getItem_eq ho.good.toSound, hev, ← eval_mod g2.toSound g4, g5 _ hj, subXor_congr (w := fun _ => false) (fun i _ => hev _)]
  refine congrArg Except.ok ?_
  unfold subXor
  simp [xorSum]

/-- **C81.** `root_boolf` of an object that may be inflated: the object itself if `is_root`, and otherwise a canonical object; the values are
those at the keys with the corresponding digits. -/
theorem C81_root_boolf_inflated (f : Boolf) (hf : Obj f) :
    ∃ g, f.rootBoolf = .ok g ∧ Obj g ∧ (f.isRoot = true → g = f) ∧ (f.isRoot = false → g.isInflated = false) ∧
      (∀ x ∈ g.atomvals, x < f.valency) ∧
      ∀ key key' : Nat, (∀ k x : Nat, f.atomvals[k]? = some x → key'.testBit k = key.testBit x) → g.getItem key' = f.getItem key := by
  have h := hf.good.toSound
  have hr : Sound (rootOf f) := by
    have hl : (rootOf f).atomvals.length = f.atomvals.length := by show (List.range f.valency).length = _; rw [List.length_range, h.val]
    refine ⟨List.pairwise_lt_range, by rw [hl]; exact h.len, by rw [hl]; exact h.val, fun n => ?_⟩
    show f.valency ≤ n ↔ ∀ x ∈ List.range f.valency, x < n
    constructor
    · intro h1 x hx; rw [List.mem_range] at hx; omega
    · intro h1
      by_contra hc
      have := h1 n (List.mem_range.2 (by omega))
      omega
  have hval : ∀ key key' : Nat, (∀ k x : Nat, f.atomvals[k]? = some x → key'.testBit k = key.testBit x) →
      (rootOf f).eval key'.testBit = f.eval key.testBit := by
    intro key key' hk
    show f.root.vector.getD (valB ((List.range f.valency).map key'.testBit)) false = f.root.vector.getD (valB (f.atomvals.map key.testBit)) false
    congr 2
    show (List.range f.valency).map key'.testBit = f.atomvals.map key.testBit
    apply List.ext_getElem?
    intro k
    rw [List.getElem?_map, List.getElem?_map]
    by_cases hl : k < f.atomvals.length
    · rw [List.getElem?_range (by rw [h.val]; exact hl), List.getElem?_eq_getElem hl, Option.map_some, Option.map_some,
        hk k _ (List.getElem?_eq_getElem hl)]
    · rw [List.getElem?_eq_none (l := f.atomvals) (by omega), List.getElem?_eq_none (by rw [List.length_range, h.val]; omega)]
      rfl
  unfold Boolf.rootBoolf
  by_cases hroot : f.isRoot = true
  · have hA := (isRoot_iff h).1 hroot
    refine ⟨f, by rw [if_pos hroot], hf, fun _ => rfl, fun h1 => (by rw [hroot] at h1; cases h1), fun x hx => by rw [hA] at hx; exact List.mem_range.1 hx, ?_⟩
    intro key key' hk
    rw [getItem_eq h, getItem_eq h, ← hval key key' hk]
    unfold Boolf.eval rootOf
    simp only
    rw [← hA]
  · rw [if_neg hroot]
    obtain ⟨g, g1, g2, g3⟩ := newFullspots_spec (fs := f.fullspots) (A := List.range f.valency)
      (av := some ((List.range f.valency).map Int.ofNat)) (ar := none) List.pairwise_lt_range
      (by rw [List.length_range, h.val]; exact fun i hi => fullspots_lt h hi) (by simp) rfl
    have hev : ∀ a, g.eval a = (rootOf f).eval a := by
      intro a
      rw [g3, Bool.eq_iff_iff, decide_eq_true_eq]
      exact spot_mem hr a
    refine ⟨g, g1, g2.reach.obj, fun h1 => absurd h1 hroot, fun _ => g2.infl, fun x hx => ?_, fun key key' hk => ?_⟩
    · rw [g2.mem_iff, funext hev] at hx
      by_contra hc
      exact Boolf.not_dep (f := rootOf f) (fun hm => hc (List.mem_range.1 hm)) hx
    · rw [getItem_eq g2.toSound, getItem_eq h, hev, hval key key' hk]

end Verif.BF
