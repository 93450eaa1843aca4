import Verif.Boolf.Props43
import Mathlib.Algebra.BigOperators.Group.Finset.Basic
import Mathlib.Algebra.Order.BigOperators.Group.Finset
import Mathlib.Data.Nat.Prime.Basic
import Mathlib.Tactic.Ring

/-! # The blocks of the equivalence class partitions (C169)

The elements of each of the partitions `ec_family`, `ec_faction` and `ec_clan` are the members of a group (or its cosets), and the labels are an orbit.  So all blocks
have the same size. -/

namespace Verif.BF

open Verif.Py Verif.BV Verif.P Verif.W Verif.SP
open Verif.A hiding Mat

/-! ## counting -/

/-- The numbers below `N` can be moved to each other without breaking the classes of `lab`. -/
def Movable (N : Nat) (lab : Nat → Boolf) : Prop :=
  ∀ i, i < N → ∀ j, j < N → ∃ φ : Nat → Nat, (∀ a, a < N → φ a < N) ∧ (∀ a, a < N → ∀ b, b < N → φ a = φ b → a = b) ∧ φ i = j ∧
    ∀ a, a < N → ∀ b, b < N → lab a = lab b → lab (φ a) = lab (φ b)

theorem Labelling.count {p : SetPart Boolf} {N : Nat} {lab : Nat → Boolf} (h : Labelling p N lab) (ht : Movable N lab) {g : Boolf} {B : List Int}
    (hB : p.getBlockFromLabel g = some B) : p.blockLabels.length * B.length = N := by
  classical
  let F : Boolf → Finset Nat := fun g => (Finset.range N).filter fun i => lab i = g
  have hle : ∀ i, i < N → ∀ j, j < N → (F (lab i)).card ≤ (F (lab j)).card := by
    intro i hi j hj
    obtain ⟨φ, f1, f2, f3, f4⟩ := ht i hi j hj
    apply Finset.card_le_card_of_injOn φ
    · intro a ha
      simp only [F, Finset.coe_filter, Finset.mem_range, Set.mem_ofPred_eq] at ha ⊢
      exact ⟨f1 a ha.1, by rw [← f3]; exact f4 a ha.1 i hi ha.2⟩
    · intro a ha b hb hab
      simp only [F, Finset.coe_filter, Finset.mem_range, Set.mem_ofPred_eq] at ha hb
      exact f2 a ha.1 b hb.1 hab
  obtain ⟨b1, b2, b3⟩ := (h.block g B).1 hB
  have hBc : B.length = (F g).card := by
    have hn : B.Nodup := b2.imp fun h => ne_of_lt h
    rw [← List.toFinset_card_of_nodup hn]
    have : B.toFinset = (F g).image (fun i : Nat => (i : Int)) := by
      ext x
      simp only [List.mem_toFinset, b3, F, Finset.mem_image, Finset.mem_filter, Finset.mem_range]
      constructor
      · rintro ⟨i, h1, h2, h3⟩; exact ⟨i, ⟨h1, h3⟩, h2.symm⟩
      · rintro ⟨i, ⟨h1, h3⟩, h2⟩; exact ⟨i, h1, h2.symm, h3⟩
    rw [this, Finset.card_image_of_injective _ Nat.cast_injective]
  obtain ⟨i, hi, rfl⟩ : ∃ i, i < N ∧ lab i = g := by
    obtain ⟨x, hx⟩ := List.exists_mem_of_ne_nil B b1
    obtain ⟨i, h1, _, h3⟩ := (b3 x).1 hx
    exact ⟨i, h1, h3⟩
  have hsum := Finset.card_eq_sum_card_fiberwise (s := Finset.range N) (t := (p.blockLabels.map Prod.snd).toFinset) (f := lab) (by
    intro a ha
    simp only [Finset.coe_range, Set.mem_Iio] at ha
    simp only [List.coe_toFinset, Set.mem_ofPred_eq]
    exact (h.labels _).2 ⟨a, ha, rfl⟩)
  rw [Finset.card_range, Finset.sum_congr rfl (g := fun _ => B.length)] at hsum
  · rw [Finset.sum_const, smul_eq_mul, List.toFinset_card_of_nodup h.nodup, List.length_map] at hsum
    exact hsum.symm
  · intro x hx
    obtain ⟨j, hj, rfl⟩ := (h.labels x).1 (List.mem_toFinset.1 hx)
    rw [hBc]
    exact le_antisymm (hle j hj i hi) (hle i hi j hj)

theorem movable_const (N : Nat) (f : Boolf) : Movable N fun _ => f := by
  intro i hi j hj
  refine ⟨fun a => if a = i then j else if a = j then i else a, fun a ha => ?_, fun a ha b hb h => ?_, by simp, fun _ _ _ _ _ => rfl⟩
  · simp only; split_ifs <;> assumption
  · simp only at h
    split_ifs at h <;> omega

/-! ## substitutions -/

/-- the replacement of the numbers in `D` with different numbers below `n`, which can be negated only when `neg` is true -/
structure Subst (n : Nat) (D : List Nat) (neg : Bool) (r : Nat → Nat) (s : Nat → Bool) : Prop where
  lt : ∀ x ∈ D, r x < n
  inj : ∀ x ∈ D, ∀ y ∈ D, r x = r y → x = y
  sign : neg = false → ∀ x ∈ D, s x = false

/-- a replacement of all numbers below `n`, that moves one replacement to another one -/
theorem Subst.move {n : Nat} {D : List Nat} {neg : Bool} {r r' : Nat → Nat} {s s' : Nat → Bool} (h : Subst n D neg r s) (h' : Subst n D neg r' s') :
    ∃ t u, Subst n (List.range n) neg t u ∧ ∀ x ∈ D, t (r x) = r' x ∧ (s x ^^ u (r x)) = s' x := by
  let pre : Nat → Option Nat := fun y => D.find? fun x => r x == y
  have hpre : ∀ x ∈ D, pre (r x) = some x := by
    intro x hx
    simp only [pre]
    cases e : D.find? fun x' => r x' == r x with
    | none => have := List.find?_eq_none.1 e x hx; simp at this
    | some y =>
      have h2 := List.find?_some e
      rw [h.inj y (List.mem_of_find?_eq_some e) x hx (by simpa using h2)]
  obtain ⟨z, z1, z2⟩ := extend_arrangement (n := n) (A := D.map r) (r := fun y => ((pre y).map r').getD 0) (by
      intro y hy
      obtain ⟨x, hx, rfl⟩ := List.mem_map.1 hy
      exact h.lt x hx) (by
      intro y hy
      obtain ⟨x, hx, rfl⟩ := List.mem_map.1 hy
      simp only [hpre x hx, Option.map_some, Option.getD_some]
      exact h'.lt x hx) (by
      intro y hy y' hy'
      obtain ⟨x, hx, rfl⟩ := List.mem_map.1 hy
      obtain ⟨x', hx', rfl⟩ := List.mem_map.1 hy'
      simp only [hpre x hx, hpre x' hx', Option.map_some, Option.getD_some]
      intro e
      rw [h'.inj x hx x' hx' e])
  have hz : ∀ y (hy : y < n), ∃ hl : y < z.length, z.getD y 0 = z[y] := by
    intro y hy
    have hl : y < z.length := by rw [z1.length_eq, List.length_range]; exact hy
    exact ⟨hl, by rw [List.getD_eq_getElem?_getD, List.getElem?_eq_getElem hl]; rfl⟩
  refine ⟨fun y => z.getD y 0, fun y => ((pre y).map fun x => s x ^^ s' x).getD false, ⟨fun y hy => ?_, fun y hy y' hy' e => ?_, fun hn y _ => ?_⟩, fun x hx => ⟨?_, ?_⟩⟩
  · obtain ⟨hl, e⟩ := hz y (List.mem_range.1 hy)
    simp only [e]
    exact List.mem_range.1 (z1.mem_iff.1 (List.getElem_mem hl))
  · obtain ⟨hl, e1⟩ := hz y (List.mem_range.1 hy)
    obtain ⟨hl', e2⟩ := hz y' (List.mem_range.1 hy')
    simp only [e1, e2] at e
    exact ((z1.nodup_iff.2 List.nodup_range).getElem_inj_iff).1 e
  · cases e : pre y with
    | none => rfl
    | some x =>
      have hx := List.mem_of_find?_eq_some e
      simp [h.sign hn x hx, h'.sign hn x hx]
  · have := z2 (r x) (List.mem_map_of_mem hx)
    simp only [List.getD_eq_getElem?_getD, this, hpre x hx, Option.map_some, Option.getD_some]
  · simp only [hpre x hx, Option.map_some, Option.getD_some]
    rw [← Bool.xor_assoc, Bool.xor_self, Bool.false_xor]

theorem Subst.comp {n : Nat} {D : List Nat} {neg : Bool} {r t : Nat → Nat} {s u : Nat → Bool} (h : Subst n D neg r s) (h' : Subst n (List.range n) neg t u) :
    Subst n D neg (fun x => t (r x)) (fun x => s x ^^ u (r x)) where
  lt x hx := h'.lt _ (List.mem_range.2 (h.lt x hx))
  inj x hx y hy e := h.inj x hx y hy (h'.inj _ (List.mem_range.2 (h.lt x hx)) _ (List.mem_range.2 (h.lt y hy)) e)
  sign hn x hx := by rw [h.sign hn x hx, h'.sign hn _ (List.mem_range.2 (h.lt x hx))]; rfl

/-- When the elements are the replacements, they can be moved to each other. -/
theorem movable_of_subst {f : Boolf} {n N : Nat} {D : List Nat} {neg : Bool} {lab : Nat → Boolf} (R : Nat → Nat → Nat) (S : Nat → Nat → Bool)
    (hD : ∀ x ∈ f.atomvals, x ∈ D) (hs : ∀ i, i < N → Subst n D neg (R i) (S i)) (hl : ∀ i, i < N → Lits f (fun x => slit (S i x) (R i x : Nat)) (lab i))
    (hinj : ∀ i, i < N → ∀ j, j < N → (∀ x ∈ D, R i x = R j x ∧ S i x = S j x) → i = j)
    (hsurj : ∀ r s, Subst n D neg r s → ∃ i, i < N ∧ ∀ x ∈ D, R i x = r x ∧ S i x = s x) : Movable N lab := by
  intro i hi j hj
  obtain ⟨t, u, h1, h2⟩ := (hs i hi).move (hs j hj)
  have hex : ∀ a, ∃ b, a < N → b < N ∧ ∀ x ∈ D, R b x = t (R a x) ∧ S b x = (S a x ^^ u (R a x)) := by
    intro a
    by_cases ha : a < N
    · obtain ⟨b, hb⟩ := hsurj _ _ ((hs a ha).comp h1)
      exact ⟨b, fun _ => hb⟩
    · exact ⟨0, fun h => absurd h ha⟩
  choose φ hφ using hex
  have hev : ∀ a, a < N → ∀ v : Nat → Bool, (lab (φ a)).eval v = (lab a).eval fun y => v (t y) ^^ u y := by
    intro a ha v
    rw [(hl _ (hφ a ha).1).2, (hl a ha).2]
    apply Boolf.eval_congr
    intro x hx
    obtain ⟨e1, e2⟩ := (hφ a ha).2 x (hD x hx)
    rw [lit_slit, lit_slit, e1, e2, Bool.xor_assoc, Bool.xor_comm (S a x)]
  refine ⟨φ, fun a ha => (hφ a ha).1, fun a ha b hb e => hinj a ha b hb fun x hx => ?_, hinj _ (hφ i hi).1 j hj fun x hx => ?_, fun a ha b hb e => ?_⟩
  · obtain ⟨a1, a2⟩ := (hφ a ha).2 x hx
    obtain ⟨b1, b2⟩ := (hφ b hb).2 x hx
    rw [e, b1] at a1
    rw [e, b2] at a2
    have e1 := h1.inj _ (List.mem_range.2 ((hs b hb).lt x hx)) _ (List.mem_range.2 ((hs a ha).lt x hx)) a1
    rw [e1] at a2
    exact ⟨e1.symm, ((Bool.xor_left_inj (z := u (R a x))).1 a2).symm⟩
  · obtain ⟨a1, a2⟩ := (hφ i hi).2 x hx
    rw [a1, a2]
    exact h2 x hx
  · apply (hl _ (hφ a ha).1).1.ext (hl _ (hφ b hb).1).1
    intro v
    rw [hev a ha, hev b hb, e]

/-! ## the elements of the partitions -/

theorem perm_seq {n k : Nat} {s : List Nat} (h : (revColexPerms n)[k]? = some s) : s.length = n ∧ s.Nodup ∧ (∀ x ∈ s, x < n) ∧ k < Nat.factorial n := by
  have hs := (mem_revColexPerms n s).1 (List.mem_of_getElem? h)
  refine ⟨by rw [hs.length_eq, List.length_range], hs.nodup_iff.2 List.nodup_range, fun x hx => List.mem_range.1 (hs.mem_iff.1 hx), ?_⟩
  rw [← length_revColexPerms n]
  exact (List.getElem?_eq_some_iff.1 h).1

theorem perm_index {n k k' : Nat} {s : List Nat} (h : (revColexPerms n)[k]? = some s) (h' : (revColexPerms n)[k']? = some s) : k = k' := by
  obtain ⟨a, rfl⟩ := List.getElem?_eq_some_iff.1 h
  obtain ⟨b, e⟩ := List.getElem?_eq_some_iff.1 h'
  exact (((C93_rev_colex_perms n).2.1).getElem_inj_iff).1 e.symm

theorem combo_index {n v c c' : Nat} {s : List Nat} (h : (combinations (List.range n) v)[c]? = some s) (h' : (combinations (List.range n) v)[c']? = some s) : c = c' := by
  obtain ⟨a, rfl⟩ := List.getElem?_eq_some_iff.1 h
  obtain ⟨b, e⟩ := List.getElem?_eq_some_iff.1 h'
  exact ((nodup_combinations _ List.nodup_range v).getElem_inj_iff).1 e.symm

theorem exists_perm_seq {n k : Nat} (hk : k < Nat.factorial n) : ∃ s, (revColexPerms n)[k]? = some s :=
  ⟨_, List.getElem?_eq_getElem (by rw [length_revColexPerms]; exact hk)⟩

theorem exists_combo {n v c : Nat} (hc : c < Nat.choose n v) : ∃ s, (combinations (List.range n) v)[c]? = some s :=
  ⟨_, List.getElem?_eq_getElem (by rw [length_combinations, List.length_range]; exact hc)⟩

theorem combo_lt {n v c : Nat} {s : List Nat} (h : (combinations (List.range n) v)[c]? = some s) : c < Nat.choose n v := by
  have := (List.getElem?_eq_some_iff.1 h).1
  rwa [length_combinations, List.length_range] at this

/-- arrangement and choice are determined by the result -/
theorem arranged_unique {n v : Nat} {s s' c c' w : List Nat} (hs : s.Perm (List.range v)) (hs' : s'.Perm (List.range v)) (hc : c ∈ combinations (List.range n) v)
    (hc' : c' ∈ combinations (List.range n) v) (hw : w.Perm c) (hw' : w.Perm c') (h1 : ∀ i j : Nat, s[i]? = some j → w[j]? = c[i]?)
    (h2 : ∀ i j : Nat, s'[i]? = some j → w[j]? = c'[i]?) : s = s' ∧ c = c' := by
  obtain ⟨c1, c2, c3⟩ := (mem_combinations_range _ _ _).1 hc
  obtain ⟨c1', c2', c3'⟩ := (mem_combinations_range _ _ _).1 hc'
  have hcc : c = c' := (hw.symm.trans hw').eq_of_pairwise' (r := (· ≤ ·)) (c1.imp Nat.le_of_lt) (c1'.imp Nat.le_of_lt)
  subst hcc
  have hwn : w.Nodup := hw.nodup_iff.2 (c1.imp fun h => Nat.ne_of_lt h)
  have hwl : w.length = v := by rw [hw.length_eq, c3]
  refine ⟨List.ext_getElem? fun i => ?_, rfl⟩
  have hsl : s.length = v := by rw [hs.length_eq, List.length_range]
  have hsl' : s'.length = v := by rw [hs'.length_eq, List.length_range]
  by_cases hi : i < v
  · have e1 : s[i]? = some s[i] := List.getElem?_eq_getElem (by omega)
    have e2 : s'[i]? = some s'[i] := List.getElem?_eq_getElem (by omega)
    have a1 : s[i] < w.length := by rw [hwl]; exact List.mem_range.1 (hs.mem_iff.1 (List.getElem_mem _))
    have a2 : s'[i] < w.length := by rw [hwl]; exact List.mem_range.1 (hs'.mem_iff.1 (List.getElem_mem _))
    have e3 := (h1 i _ e1).trans (h2 i _ e2).symm
    rw [List.getElem?_eq_getElem a1, List.getElem?_eq_getElem a2] at e3
    rw [e1, e2, (hwn.getElem_inj_iff).1 (Option.some.inj e3)]
  · rw [List.getElem?_eq_none (by omega), List.getElem?_eq_none (by omega)]

theorem code_lt {a b x y : Nat} (hx : x < a) (hy : y < b) : x * b + y < a * b :=
  calc x * b + y < x * b + b := by omega
    _ = (x + 1) * b := by rw [Nat.add_mul, Nat.one_mul]
    _ ≤ _ := Nat.mul_le_mul_right _ hx

theorem code_parts {a b e : Nat} (he : e < a * b) : e / b < a ∧ e % b < b := by
  have hb : 0 < b := by rcases Nat.eq_zero_or_pos b with h | h; · rw [h] at he; simp at he
                        · exact h
  exact ⟨Nat.div_lt_of_lt_mul (by rwa [Nat.mul_comm]), Nat.mod_lt _ hb⟩

theorem code_eq {b e e' : Nat} (h1 : e / b = e' / b) (h2 : e % b = e' % b) : e = e' := by
  rw [← Nat.div_add_mod' e b, ← Nat.div_add_mod' e' b, h1, h2]

theorem code_div {b x y : Nat} (hy : y < b) : (x * b + y) / b = x ∧ (x * b + y) % b = y := by
  constructor
  · rw [Nat.mul_comm, Nat.mul_add_div (by omega), Nat.div_eq_of_lt hy, Nat.add_zero]
  · rw [Nat.mul_comm, Nat.mul_add_mod, Nat.mod_eq_of_lt hy]

/-- the digits determine the number -/
theorem eq_of_bits {n m m' : Nat} (hm : m < 2 ^ n) (hm' : m' < 2 ^ n) (h : ∀ y, y < n → m.testBit y = m'.testBit y) : m = m' := by
  apply Nat.eq_of_testBit_eq
  intro y
  by_cases hy : y < n
  · exact h y hy
  · rw [Nat.testBit_lt_two_pow (lt_of_lt_of_le hm (Nat.pow_le_pow_right (by omega) (by omega))),
      Nat.testBit_lt_two_pow (lt_of_lt_of_le hm' (Nat.pow_le_pow_right (by omega) (by omega)))]

theorem ecFactionShort_movable {f : Boolf} {n : Nat} (hA : ∀ x ∈ f.atomvals, x < n) {lab : Nat → Boolf}
    (h : ∀ k s, (revColexPerms n)[k]? = some s → Lits f (fun x => (((s[x]?).getD x : Nat) : Int)) (lab k)) : Movable (Nat.factorial n) lab := by
  have hq : ∀ k, ∃ q : List Nat, k < Nat.factorial n → (revColexPerms n)[k]? = some q := fun k => by
    by_cases hk : k < Nat.factorial n
    · obtain ⟨s, hs⟩ := exists_perm_seq hk; exact ⟨s, fun _ => hs⟩
    · exact ⟨[], fun h => absurd h hk⟩
  choose q hq using hq
  have hget : ∀ k, k < Nat.factorial n → ∀ x, x < n → (q k)[x]? = some ((q k).getD x 0) := by
    intro k hk x hx
    rw [List.getD_eq_getElem?_getD, List.getElem?_eq_getElem (by rw [(perm_seq (hq k hk)).1]; exact hx)]
    rfl
  refine movable_of_subst (n := n) (D := List.range n) (neg := false) (fun k x => (q k).getD x 0) (fun _ _ => false) (fun x hx => List.mem_range.2 (hA x hx))
    (fun k hk => ⟨fun x hx => ?_, fun x hx y hy e => ?_, fun _ _ _ => rfl⟩) (fun k hk => ?_) (fun k hk k' hk' e => ?_) (fun r s hrs => ?_)
  · exact (perm_seq (hq k hk)).2.2.1 _ (List.mem_of_getElem? (hget k hk x (List.mem_range.1 hx)))
  · have hx' : x < (q k).length := by rw [(perm_seq (hq k hk)).1]; exact List.mem_range.1 hx
    exact (List.getElem?_inj hx' (perm_seq (hq k hk)).2.1).1 (by rw [hget k hk x (List.mem_range.1 hx), hget k hk y (List.mem_range.1 hy), e])
  · refine (h k _ (hq k hk)).congr fun x hx => ?_
    rw [hget k hk x (hA x hx)]
    rfl
  · have : q k = q k' := by
      apply List.ext_getElem?
      intro x
      by_cases hx : x < n
      · rw [hget k hk x hx, hget k' hk' x hx, (e x (List.mem_range.2 hx)).1]
      · rw [List.getElem?_eq_none (by rw [(perm_seq (hq k hk)).1]; omega), List.getElem?_eq_none (by rw [(perm_seq (hq k' hk')).1]; omega)]
    exact perm_index (hq k hk) (this ▸ hq k' hk')
  · obtain ⟨s', s1, s2⟩ := extend_arrangement (fun x hx => List.mem_range.1 hx) hrs.lt hrs.inj
    obtain ⟨k, hk⟩ := List.mem_iff_getElem?.1 ((mem_revColexPerms n s').2 s1)
    have hkl := (perm_seq hk).2.2.2
    refine ⟨k, hkl, fun x hx => ⟨?_, (hrs.sign rfl x hx).symm⟩⟩
    have : q k = s' := Option.some.inj ((hq k hkl).symm.trans hk)
    rw [this, List.getD_eq_getElem?_getD, s2 x hx]
    rfl

theorem ecClanRedundant_movable {f : Boolf} {n : Nat} (hA : ∀ x ∈ f.atomvals, x < n) {lab : Nat → Boolf}
    (h : ∀ m k s, m < 2 ^ n → (revColexPerms n)[k]? = some s → ∃ p, intToPerm k = .ok p ∧ (∀ i, i < n → s[i]? = some (p.get i)) ∧ (∀ i, i < n → p.get i < n) ∧
      Function.Injective p.get ∧ Lits f (fun x => slit (m.testBit (p.get x)) (p.get x : Nat)) (lab (m * Nat.factorial n + k))) :
    Movable (2 ^ n * Nat.factorial n) lab := by
  have hq : ∀ e, ∃ (s : List Nat) (p : Perm), e < 2 ^ n * Nat.factorial n → (revColexPerms n)[e % Nat.factorial n]? = some s ∧ (∀ i, i < n → s[i]? = some (p.get i)) ∧
      (∀ i, i < n → p.get i < n) ∧ Function.Injective p.get ∧ Lits f (fun x => slit ((e / Nat.factorial n).testBit (p.get x)) (p.get x : Nat)) (lab e) := fun e => by
    by_cases he : e < 2 ^ n * Nat.factorial n
    · obtain ⟨e1, e2⟩ := code_parts he
      obtain ⟨s, hs⟩ := exists_perm_seq e2
      obtain ⟨p, _, p2, p3, p4, p5⟩ := h _ _ s e1 hs
      rw [Nat.div_add_mod'] at p5
      exact ⟨s, p, fun _ => ⟨hs, p2, p3, p4, p5⟩⟩
    · obtain ⟨s, hs⟩ := exists_perm_seq (Nat.factorial_pos n)
      obtain ⟨p, _⟩ := h 0 0 s (Nat.two_pow_pos n) hs
      exact ⟨[], p, fun h => absurd h he⟩
  choose q p hq using hq
  refine movable_of_subst (n := n) (D := List.range n) (neg := true) (fun e x => (p e).get x) (fun e x => (e / Nat.factorial n).testBit ((p e).get x))
    (fun x hx => List.mem_range.2 (hA x hx))
    (fun e he => ⟨fun x hx => ?_, fun x hx y hy h => ?_, fun h => by cases h⟩) (fun e he => ?_) (fun e he e' he' h => ?_) (fun r s hrs => ?_)
  · exact (hq e he).2.2.1 x (List.mem_range.1 hx)
  · exact (hq e he).2.2.2.1 h
  · exact (hq e he).2.2.2.2
  · obtain ⟨a1, a2, a3, a4, _⟩ := hq e he
    obtain ⟨b1, b2, b3, b4, _⟩ := hq e' he'
    have hs : q e = q e' := by
      apply List.ext_getElem?
      intro x
      by_cases hx : x < n
      · rw [a2 x hx, b2 x hx, (h x (List.mem_range.2 hx)).1]
      · rw [List.getElem?_eq_none (by rw [(perm_seq a1).1]; omega), List.getElem?_eq_none (by rw [(perm_seq b1).1]; omega)]
    refine code_eq (eq_of_bits (code_parts he).1 (code_parts he').1 fun y hy => ?_) (perm_index a1 (hs ▸ b1))
    have hy' : y ∈ q e := ((mem_revColexPerms n _).1 (List.mem_of_getElem? a1)).mem_iff.2 (List.mem_range.2 hy)
    obtain ⟨x, hx⟩ := List.mem_iff_getElem?.1 hy'
    have hxn : x < n := by rw [← (perm_seq a1).1]; exact (List.getElem?_eq_some_iff.1 hx).1
    have hxy : (p e).get x = y := Option.some.inj ((a2 x hxn).symm.trans hx)
    obtain ⟨h1, h2⟩ := h x (List.mem_range.2 hxn)
    rw [← h1, hxy] at h2
    exact h2
  · obtain ⟨s', s1, s2⟩ := extend_arrangement (fun x hx => List.mem_range.1 hx) hrs.lt hrs.inj
    obtain ⟨k, hk⟩ := List.mem_iff_getElem?.1 ((mem_revColexPerms n s').2 s1)
    obtain ⟨m, m1, m2⟩ := digits_at hrs.lt hrs.inj s
    have hkl := (perm_seq hk).2.2.2
    have he := code_lt m1 hkl
    obtain ⟨a1, a2, _⟩ := hq _ he
    obtain ⟨d1, d2⟩ := code_div (x := m) hkl
    rw [d2] at a1
    have hs : q (m * Nat.factorial n + k) = s' := Option.some.inj (a1.symm.trans hk)
    rw [hs] at a2
    have hr : ∀ x ∈ List.range n, (p (m * Nat.factorial n + k)).get x = r x := fun x hx => Option.some.inj ((a2 x (List.mem_range.1 hx)).symm.trans (s2 x hx))
    refine ⟨_, he, fun x hx => ⟨hr x hx, ?_⟩⟩
    rw [d1, hr x hx, m2 x hx]

/-- the case of both abbreviated partitions -/
theorem abbreviated_movable {f : Boolf} {n N : Nat} (hf : Good f) {lab : Nat → Boolf} (neg : Bool) (M : Nat) (hM : M = if neg then 2 ^ f.valency else 1)
    (hN : N = M * Nat.factorial f.valency * Nat.choose n f.valency)
    (h : ∀ m k s c co, m < M → (revColexPerms f.valency)[k]? = some s → (combinations (List.range n) f.valency)[c]? = some co →
        ∃ w : List Nat, w.Perm co ∧ (∀ i j : Nat, s[i]? = some j → w[j]? = co[i]?) ∧
          Lits f (fun x => slit (m.testBit (f.atomvals.idxOf x)) (w.getD (f.atomvals.idxOf x) 0 : Nat)) (lab ((m * Nat.factorial f.valency + k) * Nat.choose n f.valency + c))) :
    Movable N lab := by
  subst hN
  have hq : ∀ e, ∃ s co w : List Nat, e < M * Nat.factorial f.valency * Nat.choose n f.valency →
      (revColexPerms f.valency)[e / Nat.choose n f.valency % Nat.factorial f.valency]? = some s ∧
      (combinations (List.range n) f.valency)[e % Nat.choose n f.valency]? = some co ∧ w.Perm co ∧ (∀ i j : Nat, s[i]? = some j → w[j]? = co[i]?) ∧
      e / Nat.choose n f.valency / Nat.factorial f.valency < M ∧
      Lits f (fun x => slit ((e / Nat.choose n f.valency / Nat.factorial f.valency).testBit (f.atomvals.idxOf x)) (w.getD (f.atomvals.idxOf x) 0 : Nat)) (lab e) := fun e => by
    by_cases he : e < M * Nat.factorial f.valency * Nat.choose n f.valency
    · obtain ⟨e1, e2⟩ := code_parts he
      obtain ⟨e3, e4⟩ := code_parts e1
      obtain ⟨s, hs⟩ := exists_perm_seq e4
      obtain ⟨co, hco⟩ := exists_combo e2
      obtain ⟨w, w1, w2, w3⟩ := h _ _ s _ co e3 hs hco
      rw [Nat.div_add_mod', Nat.div_add_mod'] at w3
      exact ⟨s, co, w, fun _ => ⟨hs, hco, w1, w2, e3, w3⟩⟩
    · exact ⟨[], [], [], fun h => absurd h he⟩
  choose q co w hq using hq
  have hlen : ∀ e, e < M * Nat.factorial f.valency * Nat.choose n f.valency → (w e).length = f.atomvals.length ∧ (w e).Nodup ∧ ∀ y ∈ w e, y < n := by
    intro e he
    obtain ⟨_, b1, b2, _⟩ := hq e he
    obtain ⟨c1, c2, c3⟩ := (mem_combinations_range _ _ _).1 (List.mem_of_getElem? b1)
    exact ⟨by rw [b2.length_eq, c3, hf.val], b2.nodup_iff.2 (c1.imp fun h => Nat.ne_of_lt h), fun y hy => c2 y (b2.mem_iff.1 hy)⟩
  have hget : ∀ e, e < M * Nat.factorial f.valency * Nat.choose n f.valency → ∀ x ∈ f.atomvals, (w e)[f.atomvals.idxOf x]? = some ((w e).getD (f.atomvals.idxOf x) 0) := by
    intro e he x hx
    rw [List.getD_eq_getElem?_getD, List.getElem?_eq_getElem (by rw [(hlen e he).1]; exact List.idxOf_lt_length_of_mem hx)]
    rfl
  have hM1 : neg = false → ∀ m, m < M → m = 0 := by
    rintro rfl m hm
    rw [hM] at hm
    simpa using hm
  have hM2 : ∀ m, m < M → m < 2 ^ f.valency := by
    intro m hm
    cases neg with
    | true => rw [hM] at hm; simpa using hm
    | false => rw [hM1 rfl m hm]; exact Nat.two_pow_pos _
  refine movable_of_subst (n := n) (D := f.atomvals) (neg := neg) (fun e x => (w e).getD (f.atomvals.idxOf x) 0)
    (fun e x => (e / Nat.choose n f.valency / Nat.factorial f.valency).testBit (f.atomvals.idxOf x)) (fun x hx => hx)
    (fun e he => ⟨fun x hx => ?_, fun x hx y hy h => ?_, fun hn x hx => ?_⟩) (fun e he => ?_) (fun e he e' he' h => ?_) (fun r s hrs => ?_)
  · exact (hlen e he).2.2 _ (List.mem_of_getElem? (hget e he x hx))
  · have hx' : f.atomvals.idxOf x < (w e).length := by rw [(hlen e he).1]; exact List.idxOf_lt_length_of_mem hx
    have := (List.getElem?_inj (j := f.atomvals.idxOf y) hx' (hlen e he).2.1).1 (by rw [hget e he x hx, hget e he y hy, h])
    exact (List.idxOf_inj hx).1 this
  · rw [hM1 hn _ (hq e he).2.2.2.2.1, Nat.zero_testBit]
  · exact (hq e he).2.2.2.2.2
  · obtain ⟨a1, a2, a3, a4, a5, _⟩ := hq e he
    obtain ⟨b1, b2, b3, b4, b5, _⟩ := hq e' he'
    have hnd := hf.toSound.nodup
    have hw : w e = w e' := by
      apply List.ext_getElem?
      intro k
      by_cases hk : k < f.atomvals.length
      · have h1 := hget e he _ (List.getElem_mem hk)
        have h2 := hget e' he' _ (List.getElem_mem hk)
        have h3 := (h _ (List.getElem_mem hk)).1
        simp only [hnd.idxOf_getElem k hk] at h1 h2 h3
        rw [h1, h2, h3]
      · rw [List.getElem?_eq_none (by rw [(hlen e he).1]; omega), List.getElem?_eq_none (by rw [(hlen e' he').1]; omega)]
    rw [← hw] at b3 b4
    obtain ⟨u1, u2⟩ := arranged_unique ((mem_revColexPerms _ _).1 (List.mem_of_getElem? a1)) ((mem_revColexPerms _ _).1 (List.mem_of_getElem? b1))
      (List.mem_of_getElem? a2) (List.mem_of_getElem? b2) a3 b3 a4 b4
    refine code_eq (code_eq (eq_of_bits (hM2 _ a5) (hM2 _ b5) fun y hy => ?_) (perm_index a1 (u1 ▸ b1))) (combo_index a2 (u2 ▸ b2))
    rw [hf.val] at hy
    have h3 := (h _ (List.getElem_mem hy)).2
    simp only [hnd.idxOf_getElem y hy] at h3
    exact h3
  · obtain ⟨t, c, s1, s2, s3, s4⟩ := choice_arrangement (n := n) (nodup_map_on hf.toSound.nodup hrs.inj) (by
      intro x hx
      obtain ⟨y, hy, rfl⟩ := List.mem_map.1 hx
      exact hrs.lt y hy)
    rw [List.length_map, ← hf.val] at s1 s2
    obtain ⟨k, hk⟩ := List.mem_iff_getElem?.1 ((mem_revColexPerms _ t).2 s1)
    obtain ⟨ci, hci⟩ := List.mem_iff_getElem?.1 s2
    have hm : valB (f.atomvals.map s) < M := by
      rw [hM]
      cases neg with
      | true => rw [if_pos rfl, hf.val]; exact valB_map_lt _ _
      | false =>
        rw [if_neg (by decide)]
        have : f.atomvals.map s = f.atomvals.map fun _ => false := List.map_congr_left fun x hx => hrs.sign rfl x hx
        have h0 : valB (f.atomvals.map s) = 0 := by
          apply Nat.eq_of_testBit_eq
          intro i
          rw [testBit_valB_map, Nat.zero_testBit]
          cases hi : f.atomvals[i]? with
          | none => rfl
          | some x => exact hrs.sign rfl x (List.mem_of_getElem? hi)
        omega
    have hkl := (perm_seq hk).2.2.2
    have hcl := combo_lt hci
    have he := code_lt (code_lt hm hkl) hcl
    obtain ⟨a1, a2, a3, a4, a5, _⟩ := hq _ he
    obtain ⟨d1, d2⟩ := code_div (x := valB (f.atomvals.map s) * Nat.factorial f.valency + k) hcl
    obtain ⟨d3, d4⟩ := code_div (x := valB (f.atomvals.map s)) hkl
    refine ⟨_, he, ?_⟩
    simp only [d1, d3]
    rw [d1, d4] at a1
    rw [d2] at a2
    generalize (valB (f.atomvals.map s) * Nat.factorial f.valency + k) * Nat.choose n f.valency + ci = e at *
    have e1 : q e = t := Option.some.inj (a1.symm.trans hk)
    have e2 : co e = c := Option.some.inj (a2.symm.trans hci)
    rw [e1, e2] at a4
    rw [e2] at a3
    have hw : w e = f.atomvals.map r := arranged_eq s1 (by rw [a3.length_eq, s3.length_eq, List.length_map, hf.val]) (by rw [List.length_map, hf.val]) a4 s4
    intro x hx
    have hx' := List.idxOf_lt_length_of_mem hx
    rw [hw, List.getD_eq_getElem?_getD, List.getElem?_map, testBit_valB_map, List.getElem?_eq_getElem hx', List.getElem_idxOf]
    exact ⟨rfl, rfl⟩

theorem ecFamily_movable {f : Boolf} {lab : Nat → Boolf}
    (h : ∀ i, i < 2 ^ f.valency → Canon (lab i) ∧ ∀ a, (lab i).eval a = f.eval fun x => a x ^^ i.testBit (f.atomvals.idxOf x)) : Movable (2 ^ f.valency) lab := by
  intro i hi j hj
  have hb : ∀ a, a < 2 ^ f.valency → (a ^^^ (i ^^^ j)) < 2 ^ f.valency := fun a ha => Nat.xor_lt_two_pow ha (Nat.xor_lt_two_pow hi hj)
  refine ⟨fun a => a ^^^ (i ^^^ j), hb, fun a _ b _ e => Nat.xor_left_injective e, ?_, fun a ha b hb' e => ?_⟩
  · simp only [← Nat.xor_assoc, Nat.xor_self, Nat.zero_xor]
  · apply (h _ (hb a ha)).1.ext (h _ (hb b hb')).1
    intro v
    have key : ∀ a, a < 2 ^ f.valency → (lab (a ^^^ (i ^^^ j))).eval v = (lab a).eval fun x => v x ^^ (i ^^^ j).testBit (f.atomvals.idxOf x) := by
      intro a ha
      rw [(h _ (hb a ha)).2, (h a ha).2]
      apply Boolf.eval_congr
      intro x _
      rw [Nat.testBit_xor, Bool.xor_assoc, Bool.xor_comm (a.testBit _)]
    rw [key a ha, key b hb', e]

/-! ## theorems -/

/-- **C169.** The number of functions in the family times the size of each block is the number of elements.  So the blocks have equal sizes, which are powers of two. -/
theorem C169_family (f : Boolf) (hf : Reach f) (E : EcPart) (hE : f.ecFamily = .ok E) (g : Boolf) (B : List Int) (hB : E.part.getBlockFromLabel g = some B) :
    E.part.blockLabels.length * B.length = E.dims.prod ∧ (∃ a, E.part.blockLabels.length = 2 ^ a) ∧ ∃ b, B.length = 2 ^ b := by
  have main : ∃ v, E.dims.prod = 2 ^ v ∧ E.part.blockLabels.length * B.length = E.dims.prod := by
    by_cases hc : f.isConstant = true
    · obtain ⟨E', h1, h2, h3⟩ := (C94_family f hf.obj).1 hc
      rw [hE] at h1
      cases h1
      rw [h2]
      exact ⟨0, rfl, h3.count (movable_const 1 f) hB⟩
    · have hc' : f.isConstant = false := by simpa using hc
      by_cases ha : f.adicity ≤ 10
      · obtain ⟨q, lab, h1, h2, h3⟩ := ecFamily_spec hf.obj.good hc' ha
        rw [hE] at h1
        cases h1
        rw [List.prod_singleton]
        exact ⟨_, rfl, h2.count (ecFamily_movable h3) hB⟩
      · rw [(C94_family f hf.obj).2.2 hc' (by omega)] at hE
        cases hE
  obtain ⟨v, h1, h2⟩ := main
  have a1 := (Nat.dvd_prime_pow Nat.prime_two).1 (show E.part.blockLabels.length ∣ 2 ^ v from ⟨_, by rw [← h1, h2]⟩)
  have a2 := (Nat.dvd_prime_pow Nat.prime_two).1 (show B.length ∣ 2 ^ v from ⟨_, by rw [← h1, ← h2, Nat.mul_comm]⟩)
  exact ⟨h2, a1.imp fun _ h => h.2, a2.imp fun _ h => h.2⟩

theorem ecFaction_movable {f : Boolf} (hf : Reach f) {arity : Option Int} {suppress : Bool} {E : EcPart} (hE : f.ecFaction arity suppress = .ok E) :
    ∃ lab, Labelling E.part E.dims.prod lab ∧ Movable E.dims.prod lab := by
  have hgd := hf.obj.good
  by_cases hc : f.isConstant = true
  · by_cases h : suppress = false ∨ arity = none ∨ ∃ a, arity = some a ∧ a ≤ 0
    · obtain ⟨E', h1, h2, _, h3⟩ := (C95_constant f hc arity suppress).2 h
      rw [hE] at h1
      cases h1
      have hp : E.dims.prod = 1 := by rw [h2]; split <;> rfl
      rw [hp]
      exact ⟨_, h3, movable_const 1 f⟩
    · cases arity with
      | none => simp at h
      | some a =>
        have ha : 0 < a := by
          by_contra hn
          exact h (Or.inr (Or.inr ⟨a, rfl, by omega⟩))
        obtain ⟨E', h1, h2, _, h3⟩ := (C95_constant f hc (some a) suppress).1 a.toNat (by omega) (by congr 1; omega) (by cases suppress <;> simp_all)
        rw [hE] at h1
        cases h1
        rw [h2, List.prod_singleton]
        exact ⟨_, h3, movable_const _ f⟩
  · have hc : f.isConstant = false := by simpa using hc
    obtain ⟨ha, n, hn⟩ := Places.le_of_ok hc hE
    have hA : ∀ x ∈ f.atomvals, x < n := fun x hx => lt_of_lt_of_le (hgd.toSound.adic_lt hx) (places_le hn)
    unfold Boolf.ecFaction at hE
    rw [if_neg (by rw [hc]; decide), if_pos ha, (ecCase_spec f arity suppress).2 n hn] at hE
    simp only [bind, Except.bind] at hE
    split at hE
    · obtain ⟨q, lab, h1, h2, h3⟩ := ecFactionShort_spec hf.obj hc n
      rw [h1] at hE
      cases hE
      rw [List.prod_singleton]
      exact ⟨lab, h2, ecFactionShort_movable hA h3⟩
    · obtain ⟨q, lab, h1, h2, h3⟩ := ecFactionLong_spec hgd hc n
      rw [h1] at hE
      cases hE
      simp only [List.prod_cons, List.prod_nil, Nat.mul_one]
      refine ⟨lab, h2, abbreviated_movable (n := n) hgd false 1 rfl (by rw [Nat.one_mul]) fun m k s c co hm hk hc => ?_⟩
      obtain rfl : m = 0 := by omega
      obtain ⟨w, w1, w2, w3⟩ := h3 k s c co hk hc
      refine ⟨w, w1, w2, ?_⟩
      rw [Nat.zero_mul, Nat.zero_add]
      exact w3.congr fun x _ => by rw [Nat.zero_testBit]; rfl

theorem ecClan_movable {fuel : Nat} {f : Boolf} (hf : Reach f) {arity : Option Int} {suppress : Bool} {E : EcPart} (hE : f.ecClan fuel arity suppress = .ok E) :
    ∃ lab, Labelling E.part E.dims.prod lab ∧ Movable E.dims.prod lab := by
  have hgd := hf.obj.good
  by_cases hc : f.isConstant = true
  · cases fuel with
    | zero => cases hE
    | succ fuel =>
      cases suppress with
      | false =>
        obtain ⟨E', h1, h2, _, h3⟩ := C96_constant fuel f hc arity
        rw [hE] at h1
        cases h1
        have hp : E.dims.prod = 1 := by rw [h2]; split <;> rfl
        rw [hp]
        exact ⟨_, h3, movable_const 1 f⟩
      | true =>
        have hcan := hf.canon
        obtain ⟨b, rfl⟩ := Canon.eq_const hcan hc
        cases b with
        | false =>
          cases arity with
          | none => rw [(C96_constant_diverges fuel).2.2.1 false] at hE; cases hE
          | some a => rw [(C96_constant_diverges _).1 a] at hE; cases hE
        | true =>
          cases arity with
          | none => rw [(C96_constant_diverges fuel).2.2.1 true] at hE; cases hE
          | some a =>
            rcases lt_trichotomy a 0 with h | rfl | h
            · rw [(C96_constant_diverges fuel).2.2.2 a h] at hE; cases hE
            · rw [(C96_constant_diverges _).2.1] at hE; cases hE
            · obtain ⟨n, rfl⟩ := Int.eq_ofNat_of_zero_le h.le
              cases fuel with
              | zero =>
                obtain ⟨f, f1, _⟩ := fullspots_all n (by omega)
                rw [Boolf.ecClan.eq_2, if_pos (show (setConstant _).isConstant = true from rfl)] at hE
                simp only [Bool.not_true, Bool.false_eq_true, if_false, bind, Except.bind, const_root, if_true, Int.toNat_natCast] at hE
                rw [if_neg (by omega)] at hE
                simp only [f1] at hE
                cases hE
              | succ fuel =>
                by_cases hn : n ≤ 5
                · obtain ⟨E', h1, h2, _, h3⟩ := (C96_constant_true fuel n (by omega)).1 hn
                  rw [hE] at h1
                  cases h1
                  rw [h2, List.prod_cons, List.prod_singleton]
                  exact ⟨_, h3, movable_const _ _⟩
                · rw [(C96_constant_true fuel n (by omega)).2 (by omega)] at hE; cases hE
  · have hc : f.isConstant = false := by simpa using hc
    obtain ⟨⟨fuel, rfl⟩, ha, n, hn⟩ := clan_ok hc hE
    have hA : ∀ x ∈ f.atomvals, x < n := fun x hx => lt_of_lt_of_le (hgd.toSound.adic_lt hx) (places_le hn)
    by_cases hsh : n = f.valency ∨ suppress = true
    · obtain ⟨q, lab, h1, h2, h3⟩ := ecClanRedundant_spec hgd hc n
      rw [ecClan_redundant hc ha hn hsh, h1] at hE
      cases hE
      simp only [List.prod_cons, List.prod_nil, Nat.mul_one]
      exact ⟨lab, h2, ecClanRedundant_movable hA h3⟩
    · have hs0 : suppress = false := by cases suppress <;> simp_all
      subst hs0
      obtain ⟨q, lab, h1, h2, h3⟩ := ecClanAbbreviated_spec hgd hc n
      rw [ecClan_abbreviated hc ha hn (by simpa using hsh), h1] at hE
      cases hE
      simp only [List.prod_cons, List.prod_nil, Nat.mul_one, ← Nat.mul_assoc]
      refine ⟨lab, h2, abbreviated_movable (n := n) hgd true _ rfl rfl fun m k s c co hm hk hc => ?_⟩
      obtain ⟨p, w, _, _, _, w1, w2, w3⟩ := h3 m k s c co (by simpa using hm) hk hc
      exact ⟨w, w1, w2, w3⟩

/-- **C169.** The number of functions in the faction times the size of each block is the number of elements, with or without abbreviation. -/
theorem C169_faction (f : Boolf) (hf : Reach f) (arity : Option Int) (suppress : Bool) (E : EcPart) (hE : f.ecFaction arity suppress = .ok E) (g : Boolf) (B : List Int)
    (hB : E.part.getBlockFromLabel g = some B) : E.part.blockLabels.length * B.length = E.dims.prod := by
  obtain ⟨lab, h1, h2⟩ := ecFaction_movable hf hE
  exact h1.count h2 hB

/-- **C169.** The number of functions in the clan times the size of each block is the number of elements, with or without abbreviation. -/
theorem C169_clan (fuel : Nat) (f : Boolf) (hf : Reach f) (arity : Option Int) (suppress : Bool) (E : EcPart) (hE : f.ecClan fuel arity suppress = .ok E) (g : Boolf)
    (B : List Int) (hB : E.part.getBlockFromLabel g = some B) : E.part.blockLabels.length * B.length = E.dims.prod := by
  obtain ⟨lab, h1, h2⟩ := ecClan_movable hf hE
  exact h1.count h2 hB

theorem length_labels {p q : SetPart Boolf} {N M : Nat} {lab lab' : Nat → Boolf} (h : Labelling p N lab) (h' : Labelling q M lab')
    (he : ∀ g, g ∈ p.blockLabels.map Prod.snd ↔ g ∈ q.blockLabels.map Prod.snd) : p.blockLabels.length = q.blockLabels.length := by
  have := ((List.perm_ext_iff_of_nodup h.nodup h'.nodup).2 he).length_eq
  rwa [List.length_map, List.length_map] at this

/-- **C169.** Abbreviation does not change the number of functions in the equivalence class, so the sizes of the blocks of the same function are in proportion to
the numbers of elements. -/
theorem C169_abbreviation (f : Boolf) (hf : Reach f) (hc : f.isConstant = false) (arity : Option Int) (E F : EcPart)
    (h : (f.ecFaction arity false = .ok E ∧ f.ecFaction arity true = .ok F) ∨ ∃ n m, f.ecClan n arity false = .ok E ∧ f.ecClan m arity true = .ok F)
    (g : Boolf) (A B : List Int) (hA : E.part.getBlockFromLabel g = some A) (hB : F.part.getBlockFromLabel g = some B) :
    E.part.blockLabels.length = F.part.blockLabels.length ∧ A.length * F.dims.prod = B.length * E.dims.prod := by
  have main : E.part.blockLabels.length = F.part.blockLabels.length ∧ E.part.blockLabels.length * A.length = E.dims.prod ∧
      F.part.blockLabels.length * B.length = F.dims.prod := by
    rcases h with ⟨hE, hF⟩ | ⟨n, m, hE, hF⟩
    · obtain ⟨_, n, hn⟩ := Places.le_of_ok hc hE
      obtain ⟨_, l1, _⟩ := ecFaction_movable hf hE
      obtain ⟨_, l2, _⟩ := ecFaction_movable hf hF
      exact ⟨length_labels l1 l2 fun g => by rw [C95_members f hf hc arity false n hn E hE, C95_members f hf hc arity true n hn F hF],
        C169_faction f hf arity false E hE g A hA, C169_faction f hf arity true F hF g B hB⟩
    · obtain ⟨_, _, k, hk⟩ := clan_ok hc hE
      obtain ⟨_, l1, _⟩ := ecClan_movable hf hE
      obtain ⟨_, l2, _⟩ := ecClan_movable hf hF
      exact ⟨length_labels l1 l2 fun g => by rw [C96_members n f hf hc arity false k hk E hE, C96_members m f hf hc arity true k hk F hF],
        C169_clan n f hf arity false E hE g A hA, C169_clan m f hf arity true F hF g B hB⟩
  obtain ⟨m1, m2, m3⟩ := main
  refine ⟨m1, ?_⟩
  rw [← m2, ← m3, m1]
  ring

/-- The exclusive or of two atoms: 2 functions in the family, 3 in the faction for arity 3, and 6 in the clan for arity 3. -/
example : ∃ f E F G, newTT (.str "0110".toList) none = .ok f ∧ Reach f ∧ f.ecFamily = .ok E ∧ E.part.getBlockFromLabel f = some [0, 3] ∧ E.part.blockLabels.length = 2 ∧
    f.ecFaction (some 3) = .ok F ∧ F.dims = [2, 3] ∧ F.part.blockLabels.length = 3 ∧ (F.part.getBlockFromLabel f).map List.length = some 2 ∧
    f.ecClan 1 (some 3) false = .ok G ∧ G.dims = [4, 2, 3] ∧ G.part.blockLabels.length = 6 ∧ (G.part.getBlockFromLabel f).map List.length = some 4 := by
  obtain ⟨_, e1, e2⟩ := newTT_explicit "0110".toList [false, true, true, false] [0, 1] 2 (by decide) (by decide) (by decide) (by intro n; simp; omega)
    (by decide) (by decide)
  exact ⟨_, _, _, _, e1 (by decide), e2.reach, rfl, by decide +kernel, by decide +kernel, rfl, by decide +kernel, by decide +kernel, by decide +kernel, rfl,
    by decide +kernel, by decide +kernel, by decide +kernel⟩

/-- For arity 4 the blocks of the faction have 2 elements, and 4 without abbreviation. -/
example : ∃ f E F, newTT (.str "0110".toList) none = .ok f ∧ Reach f ∧ f.isConstant = false ∧ f.ecFaction (some 4) false = .ok E ∧ f.ecFaction (some 4) true = .ok F ∧
    E.dims = [2, 6] ∧ F.dims = [24] ∧ E.part.blockLabels.length = 6 ∧ (E.part.getBlockFromLabel f).map List.length = some 2 ∧
    (F.part.getBlockFromLabel f).map List.length = some 4 := by
  obtain ⟨_, e1, e2⟩ := newTT_explicit "0110".toList [false, true, true, false] [0, 1] 2 (by decide) (by decide) (by decide) (by intro n; simp; omega)
    (by decide) (by decide)
  exact ⟨_, _, _, e1 (by decide), e2.reach, rfl, rfl, rfl, by decide +kernel, by decide +kernel, by decide +kernel, by decide +kernel, by decide +kernel⟩

end Verif.BF
