import Verif.Boolf.Model19
import Verif.Boolf.Props8
import Verif.Boolf.Props61

/-!
# C138: kings
-/

namespace Verif.BF
open Verif.Py Verif.BV Verif.P Verif.W Verif.SP
open Verif.A hiding Mat

/-- The table with the integer value `z` arises from that with the value `y` by replacing atom `x` with atom `s[x]`, for a permutation `s` of the atoms below `n`. -/
def Permuted (n y z : Nat) : Prop :=
  ∃ s : List Nat, s.Perm (List.range n) ∧
    ∀ i < 2 ^ n, ∀ j < 2 ^ n, (∀ x x' : Nat, s[x]? = some x' → i.testBit x = j.testBit x') → z.testBit j = y.testBit i

theorem permuted_iff {n y z : Nat} : Permuted n y z ↔ ∃ p, Below n p ∧ ∀ j < 2 ^ n, z.testBit j = y.testBit (pre n p j) := by
  constructor
  · rintro ⟨s, s1, s2⟩
    have hsl : s.length = n := by simpa using s1.length_eq
    have hsn : s.Nodup := s1.nodup_iff.2 List.nodup_range
    let p : Nat → Nat := fun x => if x < n then s.getD x 0 else x
    have hpv : ∀ x, (hx : x < n) → p x = s[x]'(by omega) := fun x hx => by
      simp only [p, if_pos hx]; rw [List.getD_eq_getElem?_getD, List.getElem?_eq_getElem (by omega)]; rfl
    have hlt : ∀ x < n, p x < n := fun x hx => by rw [hpv x hx]; exact List.mem_range.1 (s1.mem_iff.1 (List.getElem_mem _))
    have hge : ∀ x, n ≤ x → p x = x := fun x hx => by simp only [p, if_neg (by omega : ¬ x < n)]
    refine ⟨p, ⟨hlt, fun x y hxy => ?_⟩, fun j hj => s2 _ (pre_lt n p j) j hj fun x x' hx => ?_⟩
    · by_cases hx : x < n <;> by_cases hy : y < n
      · rw [hpv x hx, hpv y hy] at hxy
        exact (List.Nodup.getElem_inj_iff hsn).1 hxy
      · have := hlt x hx
        rw [hge y (by omega)] at hxy
        omega
      · have := hlt y hy
        rw [hge x (by omega)] at hxy
        omega
      · rwa [hge x (by omega), hge y (by omega)] at hxy
    · obtain ⟨h1, h2⟩ := List.getElem?_eq_some_iff.1 hx
      rw [testBit_pre (by omega), hpv x (by omega), h2]
  · rintro ⟨p, hp, h⟩
    refine ⟨(List.range n).map p, hp.perm, fun i hi j hj hij => ?_⟩
    rw [h j hj]
    congr 1
    symm
    apply eq_pre hi
    intro x hx
    exact hij x (p x) (by rw [List.getElem?_map, List.getElem?_range hx]; rfl)

theorem noble_single {m z x : Nat} (hz : Noble (m + 1) z) (hx : x < m + 1) : z.testBit (2 ^ x) = z.testBit (2 ^ m) := by
  by_cases hxm : x = m
  · rw [hxm]
  · cases m with
    | zero => omega
    | succ m =>
      have h1 : 2 ^ x < 2 ^ (m + 1) := Nat.pow_lt_pow_right (by omega) (by omega)
      have h := (noble_succ hz.1).1 hz (2 ^ x) h1
      rw [subXor_at_pow (by omega), Nat.add_zero] at h
      rw [h]
      cases z.testBit (2 ^ (m + 1)) <;> cases z.testBit (2 ^ (m + 1) + 2 ^ x) <;> rfl

theorem pre_zero (n : Nat) (p : Nat → Nat) : pre n p 0 = 0 := by
  symm
  apply eq_pre (Nat.two_pow_pos n)
  simp

theorem pre_single {n : Nat} {p : Nat → Nat} (hp : Below n p) {x : Nat} (hx : x < n) : pre n p (2 ^ p x) = 2 ^ x := by
  symm
  apply eq_pre (Nat.pow_lt_pow_right (by omega) hx)
  intro y _
  rw [Nat.testBit_two_pow, Nat.testBit_two_pow]
  exact decide_eq_decide.2 ⟨fun h => by rw [h], fun h => hp.inj h⟩

theorem noble_permuted {n y z : Nat} (hy : Noble n y) (hz : z < 2 ^ 2 ^ n) {p : Nat → Nat} (hp : Below n p) (h : ∀ j < 2 ^ n, z.testBit j = y.testBit (pre n p j)) : Noble n z := by
  rw [noble_iff] at hy ⊢
  refine ⟨hz, fun j hj => ?_⟩
  rw [subXor_congr h, subXor_pre hp, h j hj, hy.2 _ (pre_lt n p j)]

/-- Permuted nobles have the same quadrant. -/
theorem quadrant_permuted {m y z : Nat} (hy : Noble (m + 1) y) {p : Nat → Nat} (hp : Below (m + 1) p)
    (h : ∀ j < 2 ^ (m + 1), z.testBit j = y.testBit (pre (m + 1) p j)) : z.testBit 1 = y.testBit 1 ∧ z.testBit (2 ^ (m + 1) - 1) = y.testBit (2 ^ (m + 1) - 1) := by
  have hpos := Nat.two_pow_pos (m + 1)
  constructor
  · obtain ⟨x, hx, h0⟩ := hp.surj (Nat.succ_pos m)
    have e := pre_single hp hx
    rw [h0, Nat.pow_zero] at e
    rw [h 1 (Nat.one_lt_two_pow (by omega)), e, noble_single hy hx, noble_bit_one hy]
  · rw [h _ (by omega), pre_full hp]

theorem masks_permuted {m : Nat} {p : Nat → Nat} (hp : Below (m + 1) p) (j : Nat) (hj : j < 2 ^ (m + 1)) :
    (2 ^ (2 ^ (m + 1) - 1)).testBit (pre (m + 1) p j) = (2 ^ (2 ^ (m + 1) - 1)).testBit j ∧
      (2 ^ 2 ^ (m + 1) - 2).testBit (pre (m + 1) p j) = (2 ^ 2 ^ (m + 1) - 2).testBit j := by
  have hpos := Nat.two_pow_pos (m + 1)
  constructor
  · rw [Nat.testBit_two_pow, Nat.testBit_two_pow]
    apply decide_eq_decide.2
    constructor
    · intro h
      rw [← pre_full hp] at h
      exact pre_inj hp (by omega) hj h
    · rintro rfl
      rw [pre_full hp]
  · rw [testBit_greatest hpos, testBit_greatest hpos, decide_eq_true hj, decide_eq_true (pre_lt _ _ _)]
    congr 1
    apply decide_eq_decide.2
    rw [not_iff_not]
    constructor
    · intro h
      rw [← pre_zero (m + 1) p] at h
      exact pre_inj hp hj hpos h
    · rintro rfl
      exact pre_zero _ _

/-- the royal of a noble -/
theorem royal_eq {m z : Nat} (hz : Noble (m + 1) z) : nobleToRoyalAndQuadrant z (m + 1) = .ok
    (if (z.testBit 1).toNat + 2 * (z.testBit (2 ^ (m + 1) - 1)).toNat = 0 then z
      else if (z.testBit 1).toNat + 2 * (z.testBit (2 ^ (m + 1) - 1)).toNat = 1 then z ^^^ 2 ^ (2 ^ (m + 1) - 1) ^^^ (2 ^ 2 ^ (m + 1) - 2)
      else if (z.testBit 1).toNat + 2 * (z.testBit (2 ^ (m + 1) - 1)).toNat = 2 then z ^^^ 2 ^ (2 ^ (m + 1) - 1) else z ^^^ (2 ^ 2 ^ (m + 1) - 2),
      (z.testBit 1).toNat + 2 * (z.testBit (2 ^ (m + 1) - 1)).toNat) := by
  unfold nobleToRoyalAndQuadrant
  rw [if_neg (by omega), nobleToQuadrant_spec hz]
  simp only [bind, Except.bind, pure, Except.pure, shl_eq]

/-- The royals of permuted nobles are permuted, and conversely. -/
theorem royal_permuted {m y z r s q q' : Nat} (hy : Noble (m + 1) y) (hz : Noble (m + 1) z) (hr : nobleToRoyalAndQuadrant y (m + 1) = .ok (r, q))
    (hs : nobleToRoyalAndQuadrant z (m + 1) = .ok (s, q')) : Permuted (m + 1) y z ↔ q = q' ∧ Permuted (m + 1) r s := by
  rw [royal_eq hy] at hr
  rw [royal_eq hz] at hs
  cases hr
  cases hs
  have key : ∀ (p : Nat → Nat), Below (m + 1) p → (z.testBit 1).toNat + 2 * (z.testBit (2 ^ (m + 1) - 1)).toNat = (y.testBit 1).toNat + 2 * (y.testBit (2 ^ (m + 1) - 1)).toNat →
      ∀ j < 2 ^ (m + 1),
      ((if (z.testBit 1).toNat + 2 * (z.testBit (2 ^ (m + 1) - 1)).toNat = 0 then z
        else if (z.testBit 1).toNat + 2 * (z.testBit (2 ^ (m + 1) - 1)).toNat = 1 then z ^^^ 2 ^ (2 ^ (m + 1) - 1) ^^^ (2 ^ 2 ^ (m + 1) - 2)
        else if (z.testBit 1).toNat + 2 * (z.testBit (2 ^ (m + 1) - 1)).toNat = 2 then z ^^^ 2 ^ (2 ^ (m + 1) - 1) else z ^^^ (2 ^ 2 ^ (m + 1) - 2)).testBit j =
      (if (y.testBit 1).toNat + 2 * (y.testBit (2 ^ (m + 1) - 1)).toNat = 0 then y
        else if (y.testBit 1).toNat + 2 * (y.testBit (2 ^ (m + 1) - 1)).toNat = 1 then y ^^^ 2 ^ (2 ^ (m + 1) - 1) ^^^ (2 ^ 2 ^ (m + 1) - 2)
        else if (y.testBit 1).toNat + 2 * (y.testBit (2 ^ (m + 1) - 1)).toNat = 2 then y ^^^ 2 ^ (2 ^ (m + 1) - 1) else y ^^^ (2 ^ 2 ^ (m + 1) - 2)).testBit (pre (m + 1) p j) ↔
      z.testBit j = y.testBit (pre (m + 1) p j)) := by
    intro p hp hq j hj
    obtain ⟨h1, h2⟩ := masks_permuted hp j hj
    rw [hq]
    split
    · rfl
    · split
      · rw [Nat.testBit_xor, Nat.testBit_xor, Nat.testBit_xor, Nat.testBit_xor, h1, h2, Bool.xor_left_inj, Bool.xor_left_inj]
      · split
        · rw [Nat.testBit_xor, Nat.testBit_xor, h1, Bool.xor_left_inj]
        · rw [Nat.testBit_xor, Nat.testBit_xor, h2, Bool.xor_left_inj]
  rw [permuted_iff, permuted_iff]
  constructor
  · rintro ⟨p, hp, h⟩
    obtain ⟨q1, q2⟩ := quadrant_permuted hy hp h
    refine ⟨by rw [q1, q2], p, hp, fun j hj => (key p hp (by rw [q1, q2]) j hj).2 (h j hj)⟩
  · rintro ⟨hq, p, hp, h⟩
    exact ⟨p, hp, fun j hj => (key p hp hq.symm j hj).1 (h j hj)⟩

/-- the table of a function as a number -/
def tableInt (f : Boolf) (n : Nat) : Nat := valB ((List.range (2 ^ n)).map fun i => f.eval i.testBit)

theorem tableInt_lt (f : Boolf) (n : Nat) : tableInt f n < 2 ^ 2 ^ n := valB_range_lt _ _

theorem testBit_tableInt {f : Boolf} {n j : Nat} (hj : j < 2 ^ n) : (tableInt f n).testBit j = f.eval j.testBit := by
  unfold tableInt
  rw [testBit_valB_range, decide_eq_true hj, Bool.true_and]

theorem tableInt_noble {f : Boolf} {n : Nat} (h : Noble n (tableInt f n)) : Z f n = tableInt f n := by
  apply Nat.eq_of_testBit_eq
  intro j
  by_cases hj : j < 2 ^ n
  · rw [testBit_Z hj, (noble_iff.1 h).2 j hj]
    exact subXor_congr (w := (tableInt f n).testBit) (fun i hi => (testBit_tableInt hi).symm) j
  · rw [testBit_of_lt (Z_lt f n) (by omega), testBit_of_lt h.1 (by omega)]

theorem tableInt_renamed {f g : Boolf} (hf : Reach f) {n : Nat} (hn : f.adicity ≤ n) {p : Nat → Nat} (h : ∀ a, g.eval a = f.eval fun x => a (p x)) (j : Nat) (hj : j < 2 ^ n) :
    (tableInt g n).testBit j = (tableInt f n).testBit (pre n p j) := by
  rw [testBit_tableInt hj, testBit_tableInt (pre_lt _ _ _), h]
  apply Boolf.eval_congr
  intro x hx
  rw [testBit_pre ((hf.canon.toSound.adic n).1 hn x hx)]

/-- Two functions arise from each other by replacing atoms, iff their tables arise from each other by permuting the atoms. -/
theorem renamed_iff_permuted {f g : Boolf} (hf : Reach f) (hg : Reach g) {n : Nat} (hfn : f.adicity ≤ n) (hgn : g.adicity ≤ n) :
    Renamed n f g ↔ Permuted n (tableInt f n) (tableInt g n) := by
  rw [permuted_iff]
  constructor
  · intro h
    obtain ⟨p, hp, hev⟩ := h.below hf hg hfn
    exact ⟨p, hp, tableInt_renamed hf hfn hev⟩
  · rintro ⟨p, hp, h⟩
    have hA : ∀ x ∈ f.atomvals, x < n := fun x hx => lt_of_lt_of_le (hf.canon.toSound.adic_lt hx) hfn
    refine ⟨p, fun x hx => hp.lt x (hA x hx), fun x _ y _ h => hp.inj h, fun key key' hk => ?_⟩
    rw [getItem_eq hg.canon.toSound, getItem_eq hf.canon.toSound, ← eval_mod hg.canon.toSound hgn]
    have hj : key % 2 ^ n < 2 ^ n := Nat.mod_lt _ (Nat.two_pow_pos n)
    rw [← testBit_tableInt hj, h _ hj, testBit_tableInt (pre_lt _ _ _)]
    congr 1
    apply Boolf.eval_congr
    intro x hx
    rw [testBit_pre (hA x hx), hk x hx, Nat.testBit_mod_two_pow, decide_eq_true (hp.lt x (hA x hx)), Bool.true_and]

theorem tableInt_newTT {n z : Nat} (hz : z < 2 ^ 2 ^ n) {f : Boolf} (h : ∀ key : Nat, f.eval key.testBit = z.testBit (key % 2 ^ n)) : tableInt f n = z := by
  apply Nat.eq_of_testBit_eq
  intro j
  by_cases hj : j < 2 ^ n
  · rw [testBit_tableInt hj, h, Nat.mod_eq_of_lt hj]
  · rw [testBit_of_lt (tableInt_lt f n) (by omega), testBit_of_lt hz (by omega)]

theorem Renamed.mono {n n' : Nat} {f g : Boolf} (h : Renamed n f g) (hn : n ≤ n') : Renamed n' f g := by
  obtain ⟨r, r1, r2, r3⟩ := h
  exact ⟨r, fun x hx => lt_of_lt_of_le (r1 x hx) hn, r2, r3⟩

/-- the king of a royal -/
theorem king_spec {m z r q : Nat} (hz : Noble (m + 1) z) (hr : nobleToRoyalAndQuadrant z (m + 1) = .ok (r, q)) :
    Noble (m + 1) r ∧ nobleToQuadrant r (m + 1) = .ok 0 ∧ ∃ f g, Reach f ∧ f.adicity ≤ m + 1 ∧ tableInt f (m + 1) = r ∧ f.factionMinrep = .ok (some g) ∧ Reach g ∧ g.adicity ≤ m + 1 ∧
      Renamed (m + 1) f g ∧ nobleToKingAndQuadrant z (m + 1) = .ok (tableInt g (m + 1), q) ∧ g.zhe = .ok (tableInt g (m + 1)) ∧ Noble (m + 1) (tableInt g (m + 1)) := by
  obtain ⟨r', q', h1, _, _, h4, h5, _⟩ := C72_royal m z hz
  rw [hr] at h1
  cases h1
  obtain ⟨f, f1, f2, f3, f4⟩ := newTT_int_table h4.1
  have ht := tableInt_newTT h4.1 f4
  obtain ⟨g, y, g1, g2, g3, g4, _⟩ := C100_faction_minrep f f2
  have hren := g3.mono f3
  have hga : g.adicity ≤ m + 1 := hren.signed.adicity f2 g2
  have hN : Noble (m + 1) (tableInt g (m + 1)) := by
    obtain ⟨p, hp, hev⟩ := hren.below f2 g2 f3
    exact noble_permuted h4 (tableInt_lt _ _) hp fun j hj => by rw [tableInt_renamed f2 f3 hev j hj, ht]
  refine ⟨h4, h5, f, g, f2, f3, ht, g1, g2, hga, hren, ?_, ?_, hN⟩
  · unfold nobleToKingAndQuadrant
    rw [hr]
    simp only [bind, Except.bind]
    rw [f1]
    simp only
    rw [g1]
    simp only
    rw [tt_arity_eq g2.canon.toSound hga]
    simp only [pure, Except.pure, intval_eq]
    rfl
  · rw [zhe_Z g2.canon.toSound hga, tableInt_noble hN]

/-- **C138.** The king of a noble is the least of the nobles that arise from its royal by permuting the atoms; it is in quadrant 0. -/
theorem C138_king (m z : Nat) (hz : Noble (m + 1) z) :
    ∃ r k q, nobleToRoyalAndQuadrant z (m + 1) = .ok (r, q) ∧ nobleToKingAndQuadrant z (m + 1) = .ok (k, q) ∧ Noble (m + 1) k ∧ nobleToQuadrant k (m + 1) = .ok 0 ∧
      Permuted (m + 1) r k ∧ ∀ y < 2 ^ 2 ^ (m + 1), Permuted (m + 1) r y → k ≤ y := by
  obtain ⟨r, q, hr, _⟩ := C72_royal m z hz
  obtain ⟨k1, k2, f, g, f1, f2, f3, g1, g2, g3, g4, g5, g6, g7⟩ := king_spec hz hr
  have hperm : Permuted (m + 1) r (tableInt g (m + 1)) := by
    rw [← f3]
    exact (renamed_iff_permuted f1 g2 f2 g3).1 g4
  refine ⟨r, _, q, hr, g5, g7, ?_, hperm, fun y hy hp => ?_⟩
  · obtain ⟨p, hp, h⟩ := permuted_iff.1 hperm
    obtain ⟨q1, q2⟩ := quadrant_permuted k1 hp h
    rw [nobleToQuadrant_spec k1] at k2
    rw [nobleToQuadrant_spec g7, q1, q2, k2]
  · obtain ⟨h, h1, h2, h3, h4⟩ := newTT_int_table hy
    have hht := tableInt_newTT hy h4
    have hNy : Noble (m + 1) y := by
      obtain ⟨p, hp, h⟩ := permuted_iff.1 hp
      exact noble_permuted k1 hy hp h
    have hren : Renamed (m + 1) f h := (renamed_iff_permuted f1 h2 f2 h3).2 (by rw [f3, hht]; exact hp)
    obtain ⟨g', w, a1, a2, a3, a4, a5⟩ := C100_faction_minrep f f1
    rw [g1] at a1
    cases a1
    obtain ⟨w', b1, b2, _⟩ := a5 _ h h2 hren
    rw [g6] at a4
    cases a4
    rw [zhe_Z h2.canon.toSound h3, tableInt_noble (by rw [hht]; exact hNy), hht] at b1
    cases b1
    exact b2

/-- **C138.** `noble_to_king_index_and_quadrant` gives the index of the king. -/
theorem C138_king_index (m z : Nat) (hz : Noble (m + 1) z) :
    ∃ k i q, nobleToKingAndQuadrant z (m + 1) = .ok (k, q) ∧ nobleToKingIndexAndQuadrant z (m + 1) = .ok (i, q) ∧ nobleToQuadrant z (m + 1) = .ok q ∧
      indexToNoble i (m + 1) = .ok k := by
  obtain ⟨r, q, hr, _, hq, _⟩ := C72_royal m z hz
  obtain ⟨_, _, _, g, _, _, _, _, _, _, _, g5, _, g7⟩ := king_spec hz hr
  obtain ⟨i, _, i1, i2⟩ := (C72_noble_to_index m _).1 g7
  refine ⟨_, i, q, g5, ?_, hq, i2⟩
  unfold nobleToKingIndexAndQuadrant
  rw [g5]
  simp only [bind, Except.bind]
  rw [i1]
  rfl

/-- **C138.** Two nobles have the same king and quadrant, if and only if one arises from the other by permuting the atoms. -/
theorem C138_same_king (m y z : Nat) (hy : Noble (m + 1) y) (hz : Noble (m + 1) z) :
    (nobleToKingIndexAndQuadrant y (m + 1) = nobleToKingIndexAndQuadrant z (m + 1) ↔ Permuted (m + 1) y z) ∧
    (nobleToKingAndQuadrant y (m + 1) = nobleToKingAndQuadrant z (m + 1) ↔ Permuted (m + 1) y z) := by
  have main : nobleToKingAndQuadrant y (m + 1) = nobleToKingAndQuadrant z (m + 1) ↔ Permuted (m + 1) y z := by
    obtain ⟨r, q, hr, _⟩ := C72_royal m y hy
    obtain ⟨s, q', hs, _⟩ := C72_royal m z hz
    obtain ⟨_, _, f, g, f1, f2, f3, g1, g2, g3, g4, g5, _, g7⟩ := king_spec hy hr
    obtain ⟨_, _, f', g', f1', f2', f3', g1', g2', g3', g4', g5', _, g7'⟩ := king_spec hz hs
    rw [royal_permuted hy hz hr hs, g5, g5', ← f3, ← f3', ← renamed_iff_permuted f1 f1' f2 f2']
    constructor
    · intro h
      have h := Except.ok.inj h
      obtain ⟨h1, h2⟩ := Prod.mk.inj h
      refine ⟨h2, ?_⟩
      have hgg : g = g' := by
        apply g2.canon.ext_key g2'.canon
        intro key
        rw [getItem_eq g2.canon.toSound, getItem_eq g2'.canon.toSound, ← eval_mod g2.canon.toSound g3, ← eval_mod g2'.canon.toSound g3']
        have hj : key % 2 ^ (m + 1) < 2 ^ (m + 1) := Nat.mod_lt _ (Nat.two_pow_pos _)
        rw [← testBit_tableInt hj, ← testBit_tableInt hj, h1]
      obtain ⟨n, hn⟩ := (C100_same_faction f f' f1 f1').1 (by rw [g1, g1', hgg])
      exact ((hn.symm f1 f1').symm f1' f1).mono f2'
    · rintro ⟨h1, h2⟩
      have := (C100_same_faction f f' f1 f1').2 ⟨_, h2⟩
      rw [g1, g1'] at this
      cases this
      rw [h1]
  refine ⟨?_, main⟩
  rw [← main]
  obtain ⟨k, i, q, k1, k2, _, k4⟩ := C138_king_index m y hy
  obtain ⟨k', i', q', k1', k2', _, k4'⟩ := C138_king_index m z hz
  constructor
  · intro h
    rw [k2, k2'] at h
    cases h
    rw [k4] at k4'
    cases k4'
    rw [k1, k1']
  · intro h
    unfold nobleToKingIndexAndQuadrant
    rw [h]

/-- **C138.** Other arguments are rejected; for arity 0 there is only the noble 0. -/
theorem C138_rejected (m z : Nat) :
    (¬ Noble (m + 1) z → z ≤ 2 ^ 2 ^ (m + 1) - 2 → nobleToKingAndQuadrant z (m + 1) = .error .argValue ∧ nobleToKingIndexAndQuadrant z (m + 1) = .error .argValue) ∧
    (2 ^ 2 ^ (m + 1) - 2 < z → nobleToKingAndQuadrant z (m + 1) = .error .argTooBig ∧ nobleToKingIndexAndQuadrant z (m + 1) = .error .argTooBig) ∧
    (nobleToKingAndQuadrant 0 0 = .ok (0, 0) ∧ nobleToKingIndexAndQuadrant 0 0 = .ok (0, 0)) ∧
    (z ≠ 0 → nobleToKingAndQuadrant z 0 = .error .argTooBig ∧ nobleToKingIndexAndQuadrant z 0 = .error .argTooBig) := by
  have h : ∀ n e, nobleToRoyalAndQuadrant z n = .error e → nobleToKingAndQuadrant z n = .error e ∧ nobleToKingIndexAndQuadrant z n = .error e := by
    intro n e he
    unfold nobleToKingIndexAndQuadrant nobleToKingAndQuadrant
    rw [he]
    exact ⟨rfl, rfl⟩
  have h' : ∀ e, nobleToQuadrant z (m + 1) = .error e → nobleToRoyalAndQuadrant z (m + 1) = .error e := by
    intro e he
    unfold nobleToRoyalAndQuadrant
    rw [if_neg (by omega), he]
    rfl
  have h0 : nobleToKingAndQuadrant 0 0 = .ok (0, 0) := by
    obtain ⟨f, f1, f2, f3, f4⟩ := newTT_int_table (z := 0) (n := 0) (by decide)
    have hc : f.isConstant = true := by
      rw [f2.canon.const]
      apply decide_eq_true
      rw [List.eq_nil_iff_forall_not_mem]
      intro x hx
      have := f2.canon.toSound.adic_lt hx
      omega
    unfold nobleToKingAndQuadrant
    rw [show nobleToRoyalAndQuadrant 0 0 = .ok (0, 0) from rfl]
    simp only [bind, Except.bind]
    rw [f1]
    simp only
    rw [show f.factionMinrep = .ok (some f) by unfold Boolf.factionMinrep; rw [if_pos hc]]
    simp only
    rw [tt_arity_eq f2.canon.toSound f3]
    simp only [pure, Except.pure, intval_eq, f4]
    simp [valB]
  refine ⟨fun h1 h2 => h _ _ (h' _ ((C72_rejected m z).1 h1 h2).1), fun h1 => h _ _ (h' _ ((C72_rejected m z).2.1 h1).1), ⟨h0, ?_⟩, fun hz => h _ _ ?_⟩
  · unfold nobleToKingIndexAndQuadrant
    rw [h0]
    rfl
  · unfold nobleToRoyalAndQuadrant
    rw [if_pos rfl, if_neg hz]

/-- **C138.** The king index and quadrant of the patron exist for every sufficient arity, and do not change when the atoms are permuted. -/
theorem C138_patron (f : Boolf) (hf : Reach f) (n : Nat) (hn : f.adicity ≤ n) :
    (∃ p i q, f.patronInt n = .ok p ∧ f.patronKingIndexAndQuadrant n = .ok (i, q) ∧ nobleToKingIndexAndQuadrant p n = .ok (i, q)) ∧
    ∀ g, Reach g → Renamed n f g → g.patronKingIndexAndQuadrant n = f.patronKingIndexAndQuadrant n := by
  obtain ⟨p, p1, p2, p3⟩ := patronInt_spec hf.canon.toSound hn
  have hfp : f.patronKingIndexAndQuadrant n = nobleToKingIndexAndQuadrant p n := by
    unfold Boolf.patronKingIndexAndQuadrant
    rw [p1]
    rfl
  have zero : n = 0 → p = 0 := by
    rintro rfl
    apply Nat.eq_of_testBit_eq
    intro j
    rw [Nat.zero_testBit]
    by_cases hj : j < 1
    · rw [p3 j (by simpa using hj), subXor_zero]
      obtain rfl : j = 0 := by omega
      simp
    · exact testBit_of_lt p2.1 (by omega)
  constructor
  · rw [hfp]
    cases n with
    | zero => exact ⟨p, 0, 0, p1, by rw [zero rfl]; exact (C138_rejected 0 0).2.2.1.2, by rw [zero rfl]; exact (C138_rejected 0 0).2.2.1.2⟩
    | succ m =>
      obtain ⟨_, i, q, _, h2, _⟩ := C138_king_index m p p2
      exact ⟨p, i, q, p1, h2, h2⟩
  · intro g hg h
    have hgn : g.adicity ≤ n := h.signed.adicity hf hg
    obtain ⟨p', p1', p2', p3'⟩ := patronInt_spec hg.canon.toSound hgn
    have hgp : g.patronKingIndexAndQuadrant n = nobleToKingIndexAndQuadrant p' n := by
      unfold Boolf.patronKingIndexAndQuadrant
      rw [p1']
      rfl
    rw [hfp, hgp]
    obtain ⟨r, hr, hev⟩ := h.below hf hg hn
    have hperm : ∀ j < 2 ^ n, p'.testBit j = p.testBit (pre n r j) := by
      intro j hj
      rw [p3' j hj, p3 _ (pre_lt _ _ _)]
      have e1 := tableInt_renamed hf hn hev j hj
      rw [testBit_tableInt hj, testBit_tableInt (pre_lt _ _ _)] at e1
      have e2 := coef_renamed hf.canon.toSound hn hr hev j
      unfold coef at e2
      rw [e1, e2]
    cases n with
    | zero =>
      congr 1
      apply Nat.eq_of_testBit_eq
      intro j
      by_cases hj : j < 2 ^ 0
      · rw [hperm j hj, show pre 0 r j = 0 from rfl]
        congr 1
        simp at hj
        exact hj.symm
      · rw [testBit_of_lt p2.1 (by omega), testBit_of_lt p2'.1 (by omega)]
    | succ m => exact ((C138_same_king m p p' p2 p2').1.2 (permuted_iff.2 ⟨r, hr, hperm⟩)).symm

/-- The nobles 54 and 86 for arity 3 arise from each other by exchanging atoms 0 and 1. -/
example : Noble 3 54 ∧ Noble 3 86 ∧ Permuted 3 54 86 ∧ ¬ Permuted 3 54 168 := by
  refine ⟨⟨by decide, by decide +revert⟩, ⟨by decide, by decide +revert⟩, ⟨[1, 0, 2], by decide, ?_⟩, ?_⟩
  · intro i hi j hj h
    have h0 := h 0 1 rfl
    have h1 := h 1 0 rfl
    have h2 := h 2 2 rfl
    clear h
    revert h0 h1 h2
    revert i j
    decide
  · rintro ⟨s, s1, s2⟩
    have := s2 7 (by decide) 7 (by decide) fun x x' hx => by
      have h1 := (List.getElem?_eq_some_iff.1 hx).1
      rw [s1.length_eq, List.length_range] at h1
      have h2 := List.mem_range.1 (s1.mem_iff.1 (List.mem_of_getElem? hx))
      interval_cases x <;> interval_cases x' <;> rfl
    exact absurd this (by decide)

end Verif.BF
