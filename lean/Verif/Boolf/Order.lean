import Verif.Boolf.Table
import Verif.Perm.Extra

/-! # Sorting the atoms of a truth table -/

namespace Verif.BF
open Verif.Py Verif.BV Verif.P Verif.W
open Verif.A hiding Mat

theorem insertionSort_lex_pairwise (l : List (Nat × Nat)) :
    (l.insertionSort fun p q => p.1 < q.1 ∨ p.1 = q.1 ∧ p.2 ≤ q.2).Pairwise fun p q => p.1 < q.1 ∨ p.1 = q.1 ∧ p.2 ≤ q.2 := by
  have : Std.Total fun p q : Nat × Nat => p.1 < q.1 ∨ p.1 = q.1 ∧ p.2 ≤ q.2 := ⟨fun p q => by omega⟩
  have : IsTrans (Nat × Nat) fun p q => p.1 < q.1 ∨ p.1 = q.1 ∧ p.2 ≤ q.2 := ⟨fun p q r => by omega⟩
  exact List.pairwise_insertionSort _ l

theorem sortTogether_spec (A : List Nat) :
    ∃ ri, sortTogether A (List.range A.length) = .ok (sorted A, ri) ∧ ri.Perm (List.range A.length) ∧
      ∀ k : Nat, ∀ j : Nat, ri[k]? = some j → A[j]? = (sorted A)[k]? := by
  unfold sortTogether
  rw [if_pos (by simp)]
  set z := (A.zip (List.range A.length)).insertionSort fun p q => p.1 < q.1 ∨ p.1 = q.1 ∧ p.2 ≤ q.2 with hz
  have hperm : z.Perm (A.zip (List.range A.length)) := List.perm_insertionSort _ _
  have h1 : z.map Prod.fst = sorted A := by
    symm
    apply sorted_eq_of_perm
    · have := (hperm.map Prod.fst).symm
      rwa [List.map_fst_zip (by simp)] at this
    · rw [List.pairwise_map]
      exact (insertionSort_lex_pairwise _).imp (fun h => by omega)
  refine ⟨z.map Prod.snd, by simp only [h1], ?_, ?_⟩
  · have := hperm.map Prod.snd
    rwa [List.map_snd_zip (by simp)] at this
  · intro k j hk
    rw [← h1]
    rw [List.getElem?_map] at hk ⊢
    cases hzk : z[k]? with
    | none => rw [hzk] at hk; cases hk
    | some p =>
      rw [hzk] at hk
      obtain rfl : p.2 = j := by simpa using hk
      have hm := hperm.mem_iff.1 (List.mem_of_getElem? hzk)
      obtain ⟨i, hi⟩ := List.mem_iff_getElem?.1 hm
      rw [List.getElem?_zip_eq_some] at hi
      have h3 := hi.2
      by_cases hlt : i < A.length
      · rw [List.getElem?_range hlt] at h3
        have : i = p.2 := by simpa using h3
        rw [← this, hi.1]; rfl
      · rw [List.getElem?_eq_none (by simp; omega)] at h3; cases h3

theorem bitPerm_act {ri : List Nat} {n : Nat} (hn : ri.length = n) (hp : ri.Nodup) {k j : Nat} (hk : ri[k]? = some j) (hj : j < n) (x : Nat) :
    (act n (colB (ri.map (2 ^ ·))) x).testBit j = x.testBit k := by
  have hkn : k < n := by
    rw [← hn]; by_contra hc; rw [List.getElem?_eq_none (by omega)] at hk; cases hk
  rw [testBit_act, if_pos hj, bsum_single hkn]
  · unfold colB
    rw [List.getElem?_map, hk]
    simp
  · intro i hi hik
    unfold colB
    rw [List.getElem?_map, List.getElem?_eq_getElem (by omega)]
    simp only [Option.map_some]
    rw [Nat.testBit_two_pow]
    have : ri[i]'(by omega) ≠ j := by
      intro h
      apply hik
      have h2 : ri[i]? = some j := by rw [List.getElem?_eq_getElem (by omega), h]
      exact (List.getElem?_inj (by omega) hp).1 (h2.trans hk.symm)
    simp [this]

theorem isUnit_bitPerm {ri : List Nat} {n : Nat} (hp : ri.Perm (List.range n)) : IsUnit (MB n (colB (ri.map (2 ^ ·)))) := by
  have hn : ri.length = n := by rw [hp.length_eq]; simp
  have hnd : ri.Nodup := hp.nodup_iff.2 List.nodup_range
  rw [isUnit_iff_inj]
  intro x hx y hy hxy
  apply Nat.eq_of_testBit_eq
  intro k
  by_cases hk : k < n
  · have hk' : ri[k]? = some (ri[k]'(by omega)) := List.getElem?_eq_getElem _
    have hj : ri[k]'(by omega) < n := List.mem_range.1 (hp.mem_iff.1 (List.getElem_mem _))
    rw [← bitPerm_act hn hnd hk' hj x, ← bitPerm_act hn hnd hk' hj y, hxy]
  · rw [Nat.testBit_lt_two_pow (lt_of_lt_of_le hx (Nat.pow_le_pow_right (by omega) (by omega))),
      Nat.testBit_lt_two_pow (lt_of_lt_of_le hy (Nat.pow_le_pow_right (by omega) (by omega)))]

theorem applyWalsh_spec {α : Type} {w : Walsh} {d n : Nat} {B : Nat → Nat → Bool} (hw : Valid w d B) (hd : d ≤ n) (v : List α) (hv : v.length = 2 ^ n) :
    ∃ u, applyWalsh w v = .ok u ∧ u.length = v.length ∧ ∀ x < 2 ^ n, u[act d B x]? = v[x]? := by
  obtain ⟨q, e, C, q1, q2, q3, q4⟩ := inverse_spec hw
  have hlt : ∀ x < 2 ^ n, act e C x < 2 ^ n := by
    intro x hx
    by_contra hc
    have : act d B (act e C x) ≥ 2 ^ n := by
      obtain ⟨i, hi, hb⟩ : ∃ i, n ≤ i ∧ (act e C x).testBit i = true := by
        by_contra hcc
        push Not at hcc
        exact hc (Nat.lt_pow_two_of_testBit _ (fun i hi => by simpa using hcc i hi))
      have hb2 : (act d B (act e C x)).testBit i = true := by rw [testBit_act, if_neg (by omega), hb]
      exact le_trans (Nat.pow_le_pow_right (by omega) hi) (Nat.ge_two_pow_of_testBit hb2)
    rw [q3] at this
    omega
  cases v with
  | nil => have := Nat.two_pow_pos n; simp at hv; omega
  | cons d0 v0 =>
  set v := d0 :: v0 with hvv
  refine ⟨(List.range v.length).map fun i => v.getD (act e C i) d0, ?_, by simp, ?_⟩
  · unfold applyWalsh
    rw [q1]
    simp only [bind, Except.bind]
    apply mapM_ok
    intro i hi
    rw [q2.get]
    simp only
    have := hlt i (by rw [← hv]; exact List.mem_range.1 hi)
    rw [List.getElem?_eq_getElem (by omega), List.getD_eq_getElem?_getD, List.getElem?_eq_getElem (by omega)]; rfl
  · intro x hx
    rw [List.getElem?_map, List.getElem?_range (by rw [hv]; exact act_lt B hd hx), Option.map_some, q4, List.getD_eq_getElem?_getD,
      List.getElem?_eq_getElem (by omega)]; rfl

/-- The order in which the digits of an index belong to the atoms, if the atoms `A` are given in any order: if the atom at place `k` in ascending
order is at place `j` of `A`, then digit `k` belongs to the atom at place `j` in ascending order. -/
def ReadOrder (A L : List Nat) : Prop :=
  L.length = A.length ∧ ∀ k j : Nat, k < A.length → A[j]? = (sorted A)[k]? → L[k]? = (sorted A)[j]?

theorem getElem?_some_lt {α : Type} {l : List α} {i : Nat} {a : α} (h : l[i]? = some a) : i < l.length := by
  by_contra hc; rw [List.getElem?_eq_none (by omega)] at h; cases h

theorem readOrder_exists {A : List Nat} (hA : A.Nodup) : ∃ L, ReadOrder A L ∧ L.Perm A := by
  obtain ⟨ri, _, h2, h3⟩ := sortTogether_spec A
  have hlen : (sorted A).length = A.length := (sorted_perm A).length_eq
  have hl : ri.length = A.length := by rw [h2.length_eq]; simp
  refine ⟨ri.map (fun j => (sorted A).getD j 0), ⟨by simp [hl], fun k j hk hkj => ?_⟩, ?_⟩
  · rw [List.getElem?_map, List.getElem?_eq_getElem (by omega)]
    have h4 := h3 k _ (List.getElem?_eq_getElem (by omega))
    have hj : j < A.length := by
      rw [List.getElem?_eq_getElem (l := sorted A) (by omega)] at hkj
      exact getElem?_some_lt hkj
    have : j = ri[k]'(by omega) := (List.getElem?_inj hj hA).1 (hkj.trans h4.symm)
    rw [← this, List.getElem?_eq_getElem (by omega), Option.map_some, List.getD_eq_getElem?_getD, List.getElem?_eq_getElem (by omega)]; rfl
  · have := (h2.map (fun j => (sorted A).getD j 0))
    refine this.trans ?_
    rw [← hlen, ← eq_map_getD]
    exact sorted_perm A

theorem ReadOrder.unique {A L M : List Nat} (hL : ReadOrder A L) (hM : ReadOrder A M) : L = M := by
  apply List.ext_getElem?
  intro k
  by_cases hk : k < A.length
  · have hlen : (sorted A).length = A.length := (sorted_perm A).length_eq
    obtain ⟨j, hj⟩ := List.mem_iff_getElem?.1 ((sorted_perm A).mem_iff.1 (List.getElem_mem (show k < (sorted A).length by omega)))
    have e : A[j]? = (sorted A)[k]? := by rw [hj, List.getElem?_eq_getElem]
    rw [hL.2 k j hk e, hM.2 k j hk e]
  · rw [List.getElem?_eq_none (by have := hL.1; omega), List.getElem?_eq_none (by have := hM.1; omega)]

/-- sorted atoms are read in their order -/
theorem readOrder_sorted {A : List Nat} (hA : A.Nodup) (h : A = sorted A) : ReadOrder A A := by
  refine ⟨rfl, fun k j hk hkj => ?_⟩
  rw [← h] at hkj
  rw [← h]
  have : j = k := by
    by_cases hj : j < A.length
    · exact (List.getElem?_inj hj hA).1 hkj
    · rw [List.getElem?_eq_none (by omega), List.getElem?_eq_getElem hk] at hkj; cases hkj
  rw [this]

theorem testBit_valB_map {α : Type} (A : List α) (a : α → Bool) (i : Nat) : (valB (A.map a)).testBit i = (A[i]?.map a).getD false := by
  rw [testBit_valB, List.getD_eq_getElem?_getD, List.getElem?_map]

theorem reorder_spec {b : Binv} {A L : List Nat} (hA : A.Nodup) (hb : b.length = 2 ^ A.length) (hL : ReadOrder A L) :
    ∃ c, reorder b A = .ok (c, sorted A) ∧ c.length = b.length ∧
      ∀ a : Nat → Bool, c.vector.getD (valB ((sorted A).map a)) false = b.vector.getD (valB (L.map a)) false := by
  unfold reorder
  by_cases hs : A = sorted A
  · rw [if_pos hs, ← hs]
    refine ⟨b, rfl, rfl, fun a => ?_⟩
    rw [hL.unique (readOrder_sorted hA hs)]
  · rw [if_neg hs]
    obtain ⟨ri, h1, h2, h3⟩ := sortTogether_spec A
    have hlen : (sorted A).length = A.length := (sorted_perm A).length_eq
    have hl : ri.length = A.length := by rw [h2.length_eq]; simp
    have hnd : ri.Nodup := h2.nodup_iff.2 List.nodup_range
    have hlt : ∀ j ∈ ri, j < A.length := fun j hj => List.mem_range.1 (h2.mem_iff.1 hj)
    obtain ⟨p, p1, p2, p3, _⟩ := (C01_perm_of_list ri).1 (by rw [hl]; exact h2)
    have hp : P.Constructed p := ⟨.seq ri, none, trivial, p1⟩
    obtain ⟨q, q1, q2, q3, q4, q5, q6⟩ := P.inverse_spec hp
    have hplt : ∀ i < A.length, p.get i < A.length := by
      intro i hi
      rw [p2 i (by omega)]; exact hlt _ (List.getElem_mem _)
    have hq : ∀ i < A.length, q.get i < A.length := by
      intro i hi
      by_contra hc
      have := p3 (q.get i) (by omega)
      rw [q6] at this; omega
    obtain ⟨w, w1, w2, w3, _⟩ := P.applyOnVector_spec q2 ((List.range A.length).map (2 ^ ·)) (by simpa using hq)
    have hw : w = ri.map (2 ^ ·) := by
      apply List.ext_getElem?
      intro k
      by_cases hk : k < A.length
      · have := w3 (p.get k) (by simpa using hplt k hk)
        rw [q5] at this
        rw [this, List.getElem?_map, List.getElem?_map, List.getElem?_range (hplt k hk), p2 k (by omega), List.getElem?_eq_getElem (by omega)]
      · rw [List.getElem?_eq_none (by simp at w2; omega), List.getElem?_eq_none (by simp; omega)]
    have hvl : ∀ x ∈ ri.map (2 ^ ·), x < 2 ^ (ri.map (2 ^ ·)).length := by
      intro x hx
      obtain ⟨j, hj, rfl⟩ := List.mem_map.1 hx
      rw [List.length_map, hl]
      exact Nat.pow_lt_pow_right (by omega) (hlt j hj)
    have hunit : IsUnit (MB (ri.map (2 ^ ·)).length (colB (ri.map (2 ^ ·)))) := by
      rw [List.length_map, hl]; exact isUnit_bitPerm h2
    obtain ⟨wp, d, r1, r2⟩ := newVector_unit hvl false hunit
    have hout : Outside A.length (colB (ri.map (2 ^ ·))) := by
      have := colB_ge hvl
      rwa [List.length_map, hl] at this
    have hd : d ≤ A.length := r2.1.minimal _ hout
    obtain ⟨u, u1, u2, u3⟩ := applyWalsh_spec r2 hd b.vector hb
    refine ⟨⟨u⟩, ?_, u2, fun a => ?_⟩
    · simp only [h1, p1, q1, bind, Except.bind, pure, Except.pure]
      rw [w1]
      simp only [hw]
      rw [r1]
      simp only [u1]
      rw [ofBools_eq]
    · have hx : valB (L.map a) < 2 ^ A.length := by rw [← hL.1]; exact valB_map_lt L a
      have hu := u3 _ hx
      have e : act d (colB (ri.map (2 ^ ·))) (valB (L.map a)) = valB ((sorted A).map a) := by
        rw [r2.act_eq hout]
        apply Nat.eq_of_testBit_eq
        intro j
        by_cases hj : j < A.length
        · obtain ⟨k, hk⟩ := List.mem_iff_getElem?.1 (h2.mem_iff.2 (List.mem_range.2 hj))
          rw [bitPerm_act hl hnd hk hj, testBit_valB_map, testBit_valB_map, hL.2 k j (by rw [← hl]; exact getElem?_some_lt hk) (h3 k j hk)]
        · rw [testBit_act, if_neg hj, testBit_valB_map, testBit_valB_map, List.getElem?_eq_none (by have := hL.1; omega),
            List.getElem?_eq_none (by omega)]
      rw [e] at hu
      rw [List.getD_eq_getElem?_getD, List.getD_eq_getElem?_getD]
      exact congrArg (fun o => Option.getD o false) hu

end Verif.BF
