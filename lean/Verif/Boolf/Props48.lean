import Verif.Boolf.Props47

/-!
# Functions that differ in their atoms and in negations of them
-/

namespace Verif.BF
open Verif.Py Verif.BV Verif.P Verif.W Verif.SP
open Verif.A hiding Mat

/-- `g` arises from `f` by replacing the atoms `x` by `r x`, negated where `s x` -/
structure Replaced (f g : Boolf) (r : Nat → Nat) (s : Nat → Bool) : Prop where
  inj : ∀ x ∈ f.atomvals, ∀ y ∈ f.atomvals, r x = r y → x = y
  eval : ∀ a, g.eval a = f.eval fun x => a (r x) ^^ s x

theorem Replaced.of_keys {f g : Boolf} (hf : Sound f) (hg : Sound g) {r : Nat → Nat} {s : Nat → Bool} (hi : ∀ x ∈ f.atomvals, ∀ y ∈ f.atomvals, r x = r y → x = y)
    (h : ∀ key key' : Nat, (∀ x ∈ f.atomvals, key'.testBit x = (key.testBit (r x) ^^ s x)) → g.getItem key = f.getItem key') : Replaced f g r s := by
  refine ⟨hi, fun a => ?_⟩
  have hb : ∃ N, g.adicity ≤ N ∧ ∀ x ∈ f.atomvals, r x < N := by
    have : ∀ l : List Nat, ∃ N, ∀ x ∈ l, r x < N := by
      intro l
      induction l with
      | nil => exact ⟨0, by simp⟩
      | cons y l ih =>
        obtain ⟨N, hN⟩ := ih
        refine ⟨max N (r y + 1), fun x hx => ?_⟩
        rcases List.mem_cons.1 hx with rfl | hx
        · exact lt_of_lt_of_le (Nat.lt_succ_self _) (le_max_right _ _)
        · exact lt_of_lt_of_le (hN x hx) (le_max_left _ _)
    obtain ⟨N, hN⟩ := this f.atomvals
    exact ⟨max N g.adicity, le_max_right _ _, fun x hx => lt_of_lt_of_le (hN x hx) (le_max_left _ _)⟩
  obtain ⟨N, hN1, hN2⟩ := hb
  have hk : ∀ x < N, (valB ((List.range N).map a)).testBit x = a x := fun x hx => by
    rw [testBit_valB_map, List.getElem?_range hx]; rfl
  obtain ⟨key', k1, k2⟩ := exists_key hf fun x => a (r x) ^^ s x
  have := h (valB ((List.range N).map a)) key' fun x hx => by rw [k2 x hx, hk _ (hN2 x hx)]
  rw [getItem_eq hg, getItem_eq hf] at this
  rw [← k1, ← Except.ok.inj this]
  exact Boolf.eval_congr fun x hx => (hk x (lt_of_lt_of_le (hg.adic_lt hx) hN1)).symm

theorem Replaced.keys {f g : Boolf} (hf : Sound f) (hg : Sound g) {r : Nat → Nat} {s : Nat → Bool} (h : Replaced f g r s) (key key' : Nat)
    (hk : ∀ x ∈ f.atomvals, key'.testBit x = (key.testBit (r x) ^^ s x)) : g.getItem key = f.getItem key' := by
  rw [getItem_eq hg, getItem_eq hf, h.eval]
  congr 1
  exact Boolf.eval_congr fun x hx => (hk x hx).symm

theorem Replaced.mem {f g : Boolf} (hf : Canon f) (hg : Canon g) {r : Nat → Nat} {s : Nat → Bool} (h : Replaced f g r s) (y : Nat) :
    y ∈ g.atomvals ↔ ∃ x ∈ f.atomvals, r x = y := by
  constructor
  · intro hy
    by_contra hc
    push Not at hc
    obtain ⟨a, ha⟩ := (hg.mem_iff y).1 hy
    apply ha
    rw [h.eval, h.eval]
    apply Boolf.eval_congr
    intro x hx
    unfold upd
    rw [if_neg (hc x hx), if_neg (hc x hx)]
  · rintro ⟨x, hx, rfl⟩
    rw [hg.mem_iff]
    obtain ⟨a, ha⟩ := (hf.mem_iff x).1 hx
    classical
    let b : Nat → Bool := fun z => if h : ∃ x ∈ f.atomvals, r x = z then a h.choose ^^ s h.choose else false
    have hb : ∀ z ∈ f.atomvals, b (r z) = (a z ^^ s z) := by
      intro z hz
      have hex : ∃ x ∈ f.atomvals, r x = r z := ⟨z, hz, rfl⟩
      have e : hex.choose = z := h.inj _ hex.choose_spec.1 _ hz hex.choose_spec.2
      simp only [b, dif_pos hex, e]
    have key : ∀ v, g.eval (upd b (r x) v) = f.eval (upd a x (v ^^ s x)) := by
      intro v
      rw [h.eval]
      apply Boolf.eval_congr
      intro z hz
      unfold upd
      by_cases hzx : z = x
      · rw [hzx, if_pos rfl, if_pos rfl]
      · rw [if_neg hzx, if_neg (fun he => hzx (h.inj _ hz _ hx he)), hb z hz]
        cases a z <;> cases s z <;> rfl
    refine ⟨b, fun he => ha ?_⟩
    rw [key, key] at he
    cases hs : s x <;> rw [hs] at he <;> simp at he
    · exact he
    · exact he.symm

theorem Replaced.symm {f g : Boolf} (hf : Canon f) (hg : Canon g) {r : Nat → Nat} {s : Nat → Bool} (h : Replaced f g r s) :
    ∃ r', Replaced g f r' (fun y => s (r' y)) ∧ ∀ y ∈ g.atomvals, r' y ∈ f.atomvals := by
  classical
  let r' : Nat → Nat := fun z => if h : ∃ x ∈ f.atomvals, r x = z then h.choose else 0
  have hr : ∀ z ∈ f.atomvals, r' (r z) = z := by
    intro z hz
    have hex : ∃ x ∈ f.atomvals, r x = r z := ⟨z, hz, rfl⟩
    simp only [r', dif_pos hex]
    exact h.inj _ hex.choose_spec.1 _ hz hex.choose_spec.2
  refine ⟨r', ⟨fun x hx y hy he => ?_, fun a => ?_⟩, fun y hy => ?_⟩
  · obtain ⟨u, hu, rfl⟩ := (h.mem hf hg _).1 hx
    obtain ⟨w, hw, rfl⟩ := (h.mem hf hg _).1 hy
    rw [hr u hu, hr w hw] at he
    rw [he]
  · rw [h.eval]
    apply Boolf.eval_congr
    intro x hx
    rw [hr x hx]
    cases a x <;> cases s x <;> rfl
  · obtain ⟨x, hx, rfl⟩ := (h.mem hf hg _).1 hy
    rw [hr x hx]
    exact hx

theorem Replaced.trans {f g k : Boolf} (hf : Canon f) (hg : Canon g) {r r' : Nat → Nat} {s s' : Nat → Bool} (h : Replaced f g r s) (h' : Replaced g k r' s') :
    Replaced f k (fun x => r' (r x)) (fun x => s' (r x) ^^ s x) := by
  refine ⟨fun x hx y hy he => ?_, fun a => ?_⟩
  · exact h.inj x hx y hy (h'.inj _ ((h.mem hf hg _).2 ⟨x, hx, rfl⟩) _ ((h.mem hf hg _).2 ⟨y, hy, rfl⟩) he)
  · rw [h'.eval, h.eval]
    congr 1
    funext x
    rw [Bool.xor_assoc]

theorem Replaced.length {f g : Boolf} (hf : Canon f) (hg : Canon g) {r : Nat → Nat} {s : Nat → Bool} (h : Replaced f g r s) :
    g.atomvals.length ≤ f.atomvals.length := by
  rw [← List.length_map (as := f.atomvals) r]
  refine (List.subperm_of_subset hg.toSound.nodup fun y hy => ?_).length_le
  obtain ⟨x, hx, rfl⟩ := (h.mem hf hg _).1 hy
  exact List.mem_map.2 ⟨x, hx, rfl⟩

/-! ### the same function of the first atoms has a smaller index -/

theorem length_le_adicity {f : Boolf} (hf : Canon f) : f.atomvals.length ≤ f.adicity := by
  have := (List.subperm_of_subset hf.toSound.nodup (fun x hx => List.mem_range.2 (hf.toSound.adic_lt hx) : f.atomvals ⊆ List.range f.adicity)).length_le
  rwa [List.length_range] at this

theorem le_rowEntry {A : List Nat} (hA : A.Pairwise (· < ·)) {i : Nat} (hi : i < 2 ^ A.length) : i ≤ rowEntry A i := by
  induction i with
  | zero => exact Nat.zero_le _
  | succ i ih =>
    have := ih (by omega)
    have := rowEntry_lt hA hi (Nat.lt_succ_self i)
    omega

theorem free_complement {n : Nat} {A : List Nat} (hA : A.Pairwise (· < ·)) (h : ∀ x ∈ A, x < n) : ∃ L, freeAtoms L n = A := by
  refine ⟨valB ((List.range n).map fun x => !A.contains x), ?_⟩
  apply eq_of_mem_iff_of_lt (freeAtoms_asc _ _) hA
  intro x
  rw [mem_freeAtoms]
  constructor
  · rintro ⟨h1, h2⟩
    rw [testBit_valB_map, List.getElem?_range h1] at h2
    simpa using h2
  · intro hx
    refine ⟨h x hx, ?_⟩
    rw [testBit_valB_map, List.getElem?_range (h x hx)]
    simpa using hx

theorem coef_rowEntry {g : Boolf} {n : Nat} {A : List Nat} (hA : A.Pairwise (· < ·)) (h : ∀ x ∈ A, x < n) {j : Nat} (hj : j < 2 ^ A.length) :
    coef g n (rowEntry A j) = subXor A.length (fun i => g.eval (rowEntry A i).testBit) j := by
  obtain ⟨L, hL⟩ := free_complement hA h
  have hnd : A.Nodup := hA.imp fun h => Nat.ne_of_lt h
  unfold coef subXor
  have : ∀ p ∈ List.range (2 ^ n), (g.eval p.testBit && sub p (rowEntry A j)) = (disj p L && (g.eval p.testBit && sub p (rowEntry A j))) := by
    intro p hp
    cases hs : sub p (rowEntry A j) with
    | false => simp
    | true =>
      have : disj p L = true := by
        rw [disj_iff]
        intro k hk
        have := sub_iff.1 hs k hk
        obtain ⟨i, i1, _⟩ := (testBit_rowEntry hnd _ _).1 this
        have hm := List.mem_of_getElem? i1
        rw [← hL] at hm
        exact (mem_freeAtoms.1 hm).2
      rw [this, Bool.true_and]
  rw [xorSum_congr this, ← xorSum_filter, disj_filter, hL, List.map_map]
  apply xorSum_congr
  intro i hi
  simp only [Function.comp]
  rw [sub_rowEntry hnd (List.mem_range.1 hi), comp_rowEntry hnd hj]

theorem compressed {g : Boolf} (hg : Canon g) :
    ∃ k, Canon k ∧ k.adicity ≤ g.atomvals.length ∧ Replaced g k (fun x => g.atomvals.idxOf x) (fun _ => false) ∧ Z k g.atomvals.length ≤ Z g g.adicity := by
  have hA := hg.asc
  have hnd := hg.toSound.nodup
  obtain ⟨k, _, k2, k3, _, k5⟩ := newTT_fun g.atomvals.length fun i => g.eval (rowEntry g.atomvals i).testBit
  refine ⟨k, k2, k3, ⟨fun x hx y hy h => (List.idxOf_inj hx).1 h, fun a => ?_⟩, ?_⟩
  · have hkey : k.eval a = k.eval (valB ((List.range g.atomvals.length).map a)).testBit := by
      apply Boolf.eval_congr
      intro x hx
      rw [testBit_valB_map, List.getElem?_range (lt_of_lt_of_le (k2.toSound.adic_lt hx) k3)]
      rfl
    have hlt : valB ((List.range g.atomvals.length).map a) < 2 ^ g.atomvals.length := by
      have := valB_lt ((List.range g.atomvals.length).map a)
      rwa [List.length_map, List.length_range] at this
    rw [hkey, k5, Nat.mod_eq_of_lt hlt]
    apply Boolf.eval_congr
    intro x hx
    have hix := List.idxOf_lt_length_of_mem hx
    have hge : g.atomvals[g.atomvals.idxOf x]? = some x := by rw [List.getElem?_eq_getElem hix, List.getElem_idxOf]
    rw [rowEntry_testBit_iff hnd hge, testBit_valB_map, List.getElem?_range hix, Bool.xor_false]
    rfl
  · have hco : ∀ j < 2 ^ g.atomvals.length, coef g g.adicity (rowEntry g.atomvals j) = coef k g.atomvals.length j := by
      intro j hj
      rw [coef_rowEntry hA (fun x hx => hg.toSound.adic_lt hx) hj]
      unfold coef
      apply subXor_congr
      intro i hi
      rw [k5, Nat.mod_eq_of_lt hi]
    have hrb : ∀ j, rowEntry g.atomvals j < 2 ^ g.adicity := fun j => rowEntry_bound hnd (fun x hx => hg.toSound.adic_lt hx) j
    have hlp : ((List.range (2 ^ g.atomvals.length)).filter (coef k g.atomvals.length)).Pairwise (· < ·) := List.Pairwise.filter _ List.pairwise_lt_range
    have hmp : (((List.range (2 ^ g.atomvals.length)).filter (coef k g.atomvals.length)).map (rowEntry g.atomvals)).Pairwise (· < ·) := by
      rw [List.pairwise_map]
      apply List.Pairwise.imp_of_mem _ hlp
      intro i j _ hj hij
      exact rowEntry_lt hA (List.mem_range.1 (List.mem_filter.1 hj).1) hij
    have e1 : Z k g.atomvals.length = exposetToInt ((List.range (2 ^ g.atomvals.length)).filter (coef k g.atomvals.length)) := by
      apply Nat.eq_of_testBit_eq
      intro j
      rw [testBit_exposetToInt hlp]
      by_cases hj : j < 2 ^ g.atomvals.length
      · rw [testBit_Z hj]
        simp [hj]
      · rw [testBit_of_lt (Z_lt _ _) (by omega)]
        simp [hj]
    have e2 : exposetToInt (((List.range (2 ^ g.atomvals.length)).filter (coef k g.atomvals.length)).map (rowEntry g.atomvals)) ≤ Z g g.adicity := by
      apply le_of_sub
      intro p hp
      rw [testBit_exposetToInt hmp, decide_eq_true_eq] at hp
      obtain ⟨j, hj, rfl⟩ := List.mem_map.1 hp
      obtain ⟨j1, j2⟩ := List.mem_filter.1 hj
      rw [testBit_Z (hrb j), hco j (List.mem_range.1 j1), j2]
    refine le_trans ?_ e2
    rw [e1]
    unfold exposetToInt
    rw [List.map_map]
    apply List.sum_le_sum
    intro j hj
    simp only [Function.comp, Nat.one_shiftLeft]
    exact Nat.pow_le_pow_right (by omega) (le_rowEntry hA (List.mem_range.1 (List.mem_filter.1 hj).1))

theorem Renamed.replaced {n : Nat} {f g : Boolf} (hf : Reach f) (hg : Reach g) (h : Renamed n f g) :
    ∃ r, (∀ x ∈ f.atomvals, r x < n) ∧ Replaced f g r fun _ => false := by
  obtain ⟨r, r1, r2, r3⟩ := h
  exact ⟨r, r1, Replaced.of_keys hf.canon.toSound hg.canon.toSound r2 fun key key' hk => r3 key key' fun x hx => by rw [hk x hx, Bool.xor_false]⟩

theorem Replaced.renamed {n : Nat} {f g : Boolf} (hf : Reach f) (hg : Reach g) {r : Nat → Nat} (h : Replaced f g r fun _ => false) (hn : ∀ x ∈ f.atomvals, r x < n) :
    Renamed n f g :=
  ⟨r, hn, h.inj, fun key key' hk => h.keys hf.canon.toSound hg.canon.toSound key key' fun x hx => by rw [hk x hx, Bool.xor_false]⟩

theorem Renamed.symm {n : Nat} {f g : Boolf} (hf : Reach f) (hg : Reach g) (h : Renamed n f g) : Renamed f.adicity g f := by
  obtain ⟨r, _, h⟩ := h.replaced hf hg
  obtain ⟨r', h', hr'⟩ := h.symm hf.canon hg.canon
  exact h'.renamed hg hf fun x hx => hf.canon.toSound.adic_lt (hr' x hx)

theorem Renamed.trans {n m : Nat} {f g k : Boolf} (hf : Reach f) (hg : Reach g) (hk : Reach k) (h : Renamed n f g) (h' : Renamed m g k) : Renamed m f k := by
  obtain ⟨r, _, h⟩ := h.replaced hf hg
  obtain ⟨r', b', h'⟩ := h'.replaced hg hk
  have := h.trans hf.canon hg.canon h'
  simp only [Bool.xor_false] at this
  exact this.renamed hf hk fun x hx => b' _ ((h.mem hf.canon hg.canon _).2 ⟨x, hx, rfl⟩)

theorem constant_atoms {f : Boolf} (hf : Canon f) (hc : f.isConstant = true) : f.atomvals = [] := by
  rw [hf.const] at hc
  simpa using hc

theorem Replaced.constant {f g : Boolf} (hf : Canon f) (hg : Canon g) (hc : f.isConstant = true) {r : Nat → Nat} {s : Nat → Bool} (h : Replaced f g r s) : g = f := by
  apply hg.ext hf
  intro a
  rw [h.eval]
  apply Boolf.eval_congr
  rw [constant_atoms hf hc]
  simp

/-! ### the representative of a faction -/

/-- **C100.** `faction_minrep` is the function with the least Zhegalkin index among those that arise by replacing the atoms with other atoms. -/
theorem C100_faction_minrep (f : Boolf) (hf : Reach f) :
    ∃ r z, f.factionMinrep = .ok (some r) ∧ Reach r ∧ Renamed f.adicity f r ∧ r.zhe = .ok z ∧
      ∀ n g, Reach g → Renamed n f g → ∃ z', g.zhe = .ok z' ∧ z ≤ z' ∧ (z' = z → g = r) := by
  have hcan := hf.canon
  by_cases hc : f.isConstant = true
  · obtain ⟨z, z1, _⟩ := zhe_spec hcan.toSound
    refine ⟨f, z, by unfold Boolf.factionMinrep; rw [if_pos hc], hf, ?_, z1, fun n g hg h => ?_⟩
    · rw [Renamed, constant_atoms hcan hc]
      refine ⟨id, by simp, by simp, fun key key' _ => ?_⟩
      rw [getItem_eq hcan.toSound, getItem_eq hcan.toSound]
      congr 1
      apply Boolf.eval_congr
      rw [constant_atoms hcan hc]
      simp
    · obtain ⟨r, _, hr⟩ := h.replaced hf hg
      obtain rfl := hr.constant hcan hg.canon hc
      exact ⟨z, z1, le_rfl, fun _ => rfl⟩
  · have hc : f.isConstant = false := by simpa using hc
    obtain ⟨P, g, hP, hg, c, hcl, c1, c2⟩ := factionMinrep_spec hcan hc
    obtain ⟨g1, g2, g3⟩ := hg c hcl
    have hrep : Replaced f (g c) (P c).get fun _ => false :=
      ⟨fun x _ y _ h => (below_of_index hcl (hP c)).inj h, fun a => by rw [g2]; simp only [Bool.xor_false]⟩
    refine ⟨g c, _, c1, g1.reach, hrep.renamed hf g1.reach fun x hx => (below_of_index hcl (hP c)).lt x (hcan.toSound.adic_lt hx), zhe_Z g1.toSound g3, fun n h hh hren => ?_⟩
    obtain ⟨r, _, hr⟩ := hren.replaced hf hh
    obtain ⟨k, k1, k2, k3, k4⟩ := compressed hh.canon
    have hfk := hr.trans hcan hh.canon k3
    have hlen : h.atomvals.length ≤ f.adicity := le_trans (hr.length hcan hh.canon) (length_le_adicity hcan)
    obtain ⟨s, s1, s2⟩ := extend_arrangement (n := f.adicity) (A := f.atomvals) (r := fun x => h.atomvals.idxOf (r x)) (fun x hx => hcan.toSound.adic_lt hx)
      (fun x hx => lt_of_lt_of_le (List.idxOf_lt_length_of_mem ((hr.mem hcan hh.canon _).2 ⟨x, hx, rfl⟩)) hlen) hfk.inj
    obtain ⟨d, hd⟩ := List.mem_iff_getElem?.1 ((mem_revColexPerms _ s).2 s1)
    have hdl : d < Nat.factorial f.adicity := by rw [← length_revColexPerms f.adicity]; exact (List.getElem?_eq_some_iff.1 hd).1
    obtain ⟨_, p, _, _, _, _, p5, p', p6, p7⟩ := perm_at hd
    obtain rfl : P d = p' := Except.ok.inj ((hP d).symm.trans p6)
    have hkd : k = g d := by
      apply k1.ext (hg d hdl).1
      intro a
      rw [hfk.eval, (hg d hdl).2.1]
      apply Boolf.eval_congr
      intro x hx
      have e1 := s2 x hx
      rw [p5 x (hcan.toSound.adic_lt hx)] at e1
      rw [p7, Option.some.inj e1]
      simp
    have hle : Z (g c) f.adicity ≤ Z h h.adicity := by
      refine le_trans (c2 d hdl) (le_trans (le_of_eq ?_) k4)
      rw [← hkd]
      have e1 := zhe_Z k1.toSound (le_trans k2 hlen)
      rw [zhe_Z k1.toSound k2] at e1
      exact (Except.ok.inj e1).symm
    refine ⟨_, zhe_Z hh.canon.toSound le_rfl, hle, fun he => ?_⟩
    have e1 := zhe_Z hh.canon.toSound (le_max_left h.adicity f.adicity)
    rw [zhe_Z hh.canon.toSound le_rfl] at e1
    have e2 := zhe_Z g1.toSound (le_trans g3 (le_max_right h.adicity f.adicity))
    rw [zhe_Z g1.toSound g3] at e2
    exact Z_inj hh.canon g1 (le_max_left h.adicity f.adicity) (le_trans g3 (le_max_right _ _))
      ((Except.ok.inj e1).symm.trans (he.trans (Except.ok.inj e2)))

/-- The difference of an atom and another has the representative where the first atom is not negated. -/
example : ∃ f r, newTT (.str "0010".toList) = .ok f ∧ newTT (.str "0100".toList) = .ok r ∧ Reach f ∧ f.factionMinrep = .ok (some r) ∧ f.zhe = .ok 12 ∧ r.zhe = .ok 10 := by
  obtain ⟨_, e1, e2⟩ := newTT_explicit "0010".toList [false, false, true, false] [0, 1] 2 (by decide) (by decide) (by decide) (by intro n; simp; omega) (by decide) (by decide)
  obtain ⟨_, e3, e4⟩ := newTT_explicit "0100".toList [false, true, false, false] [0, 1] 2 (by decide) (by decide) (by decide) (by intro n; simp; omega) (by decide) (by decide)
  exact ⟨_, _, e1 (by decide), e3 (by decide), e2.reach, by decide +kernel, by decide +kernel, by decide +kernel⟩

/-- The second atom and the first are different functions with the same representative. -/
example : ∃ f g, newTT (.list [0, 0, 1, 1]) = .ok f ∧ newTT (.list [0, 1]) = .ok g ∧ Reach f ∧ Reach g ∧ f.atomvals = [1] ∧ g.atomvals = [0] ∧
    f.factionMinrep = .ok (some g) ∧ g.factionMinrep = .ok (some g) := by
  obtain ⟨f, hf, _⟩ := newTT_fun 2 fun i => i.testBit 1
  obtain ⟨g, hg, _⟩ := newTT_fun 1 fun i => i.testBit 0
  have h1 : (do return (← newTT (.list [0, 0, 1, 1])).atomvals) = Except.ok (ε := Err) [1] := by decide +kernel
  have h2 : (do return (← newTT (.list [0, 1])).atomvals) = Except.ok (ε := Err) [0] := by decide +kernel
  have h3 : (do (← newTT (.list [0, 0, 1, 1])).factionMinrep) = (do return some (← newTT (.list [0, 1]))) := by decide +kernel
  have h4 : (do (← newTT (.list [0, 1])).factionMinrep) = (do return some (← newTT (.list [0, 1]))) := by decide +kernel
  have hf' : newTT (.list [0, 0, 1, 1]) = .ok f := hf
  have hg' : newTT (.list [0, 1]) = .ok g := hg
  simp only [hf', hg', bind, Except.bind, pure, Except.pure] at h1 h2 h3 h4
  exact ⟨f, g, hf', hg', reach_newTT hf', reach_newTT hg', Except.ok.inj h1, Except.ok.inj h2, h3, h4⟩

/-- **C100.** Two functions have the same representative if and only if one arises from the other by replacing atoms. -/
theorem C100_same_faction (f g : Boolf) (hf : Reach f) (hg : Reach g) : f.factionMinrep = g.factionMinrep ↔ ∃ n, Renamed n f g := by
  obtain ⟨r, z, r1, r2, r3, r4, r5⟩ := C100_faction_minrep f hf
  obtain ⟨s, y, s1, s2, s3, s4, s5⟩ := C100_faction_minrep g hg
  constructor
  · intro h
    rw [r1, s1] at h
    obtain rfl : r = s := Option.some.inj (Except.ok.inj h)
    exact ⟨_, r3.trans hf r2 hg (s3.symm hg r2)⟩
  · rintro ⟨n, h⟩
    obtain ⟨z1, h1, h2, h3⟩ := r5 _ s s2 (h.trans hf hg s2 s3)
    obtain ⟨z2, k1, k2, _⟩ := s5 _ r r2 ((h.symm hf hg).trans hg hf r2 r3)
    rw [s4] at h1
    rw [r4] at k1
    cases h1
    cases k1
    rw [r1, s1, h3 (Nat.le_antisymm k2 h2)]

/-- **C100.** The representative depends on the first atoms. -/
theorem C100_atoms (f r : Boolf) (hf : Reach f) (h : f.factionMinrep = .ok (some r)) : r.atomvals = List.range f.valency := by
  obtain ⟨r', z, r1, r2, r3, r4, r5⟩ := C100_faction_minrep f hf
  rw [h] at r1
  obtain rfl : r = r' := Option.some.inj (Except.ok.inj r1)
  obtain ⟨k, k1, k2, k3, k4⟩ := compressed r2.canon
  have hk := k3.renamed r2 k1.reach (n := r.atomvals.length) fun x hx => List.idxOf_lt_length_of_mem hx
  obtain ⟨z', h1, h2, h3⟩ := r5 _ k k1.reach (r3.trans hf r2 k1.reach hk)
  rw [zhe_Z k1.toSound k2] at h1
  rw [zhe_Z r2.canon.toSound le_rfl] at r4
  cases h1
  cases r4
  have hkr := h3 (le_antisymm k4 h2)
  subst hkr
  obtain ⟨q, _, hq⟩ := r3.replaced hf r2
  obtain ⟨q', hq', _⟩ := hq.symm hf.canon r2.canon
  have hl : k.atomvals.length = f.valency := by
    rw [hf.obj.good.val]
    exact le_antisymm (hq.length hf.canon r2.canon) (hq'.length r2.canon hf.canon)
  rw [← hl]
  apply eq_of_mem_iff_of_lt k1.asc List.pairwise_lt_range
  have hsub : ∀ x ∈ k.atomvals, x ∈ List.range k.atomvals.length := fun x hx => List.mem_range.2 (lt_of_lt_of_le (k1.toSound.adic_lt hx) k2)
  intro x
  exact ((List.subperm_of_subset k1.toSound.nodup hsub).perm_of_length_le (by simp)).mem_iff

end Verif.BF
