import Verif.Boolf.Props6
import Verif.Boolf.Props3
import Verif.Boolf.Model23
import Verif.Walsh.Props3
import Verif.Perm.Props2

/-! # C172: Walsh permutations of truth tables permute the Walsh spectra -/

namespace Verif.W
open Verif.Py Verif.P Verif.BV

theorem applyOnVector_asPerm {α : Type} {w : Walsh} {d : Nat} {B : Nat → Nat → Bool} (h : Valid w d B) :
    ∃ p : Perm, P.Constructed p ∧ p.get = act d B ∧ ∀ v : List α, w.applyOnVector v = p.applyOnVector v := by
  obtain ⟨p, _, p2, p3, _⟩ := h.asPerm
  refine ⟨p, p2, p3, fun v => ?_⟩
  obtain ⟨u, e, C, u1, u2, u3, _⟩ := inverse_spec h
  obtain ⟨q, q1, _, _, _, q5, _⟩ := P.inverse_spec p2
  have hg : ∀ i, q.get i = act e C i := fun i => by
    have := q5 (act e C i)
    rw [p3, u3] at this
    exact this
  unfold Walsh.applyOnVector Perm.applyOnVector
  rw [u1, q1]
  simp only [bind, Except.bind, u2.get, hg]
  congr 1

/-- **C172.** `w.apply_on_vector(v)` moves the entry at `i` to the place `w[i]`; it succeeds iff `w` maps the places of the vector to such places, in particular
if the length is a multiple of `2 ** w.degree`.  Otherwise it raises IndexError. -/
theorem C172_apply {α : Type} (w : Walsh) (hw : Constructed w) (f : Nat → Nat) (hf : ∀ x, w.get x = .ok (f x)) (v : List α) :
    ((∀ i < v.length, f i < v.length) →
      ∃ u, w.applyOnVector v = .ok u ∧ u.length = v.length ∧ (∀ i < v.length, u[f i]? = v[i]?) ∧ u.Perm v) ∧
    ((¬ ∀ i < v.length, f i < v.length) → w.applyOnVector v = .error .indexError) ∧
    (2 ^ w.degree ∣ v.length → ∀ i < v.length, f i < v.length) := by
  obtain ⟨d, B, hB⟩ := hw.valid
  obtain ⟨p, p1, p2, p3⟩ := applyOnVector_asPerm (α := α) hB
  have e : f = p.get := by
    funext x
    have := hf x
    rw [hB.get, ← p2] at this
    exact (Except.ok.inj this).symm
  rw [p3, e]
  refine ⟨(P.C12_apply_on_vector p p1 v).1, (P.C12_apply_on_vector p p1 v).2, ?_⟩
  rw [p2, hB.1.deg]
  rintro ⟨k, hk⟩ i hi
  rw [hk] at hi ⊢
  have h1 : act d B i = act d B (i % 2 ^ d) + i / 2 ^ d * 2 ^ d := by
    unfold act
    rw [Nat.div_eq_of_lt (Nat.mod_lt _ (Nat.two_pow_pos d)), Nat.zero_mul, Nat.add_zero]
    congr 2
    apply List.map_congr_left
    intro j _
    apply bsum_congr
    intro k hk
    rw [Nat.testBit_mod_two_pow]
    simp [hk]
  have h2 := act_lt B le_rfl (Nat.mod_lt i (Nat.two_pow_pos d))
  have h3 : i / 2 ^ d < k := by
    rw [Nat.div_lt_iff_lt_mul (Nat.two_pow_pos d), Nat.mul_comm]
    exact hi
  have h4 : (i / 2 ^ d + 1) * 2 ^ d ≤ k * 2 ^ d := Nat.mul_le_mul_right _ h3
  rw [Nat.add_mul, Nat.one_mul] at h4
  rw [h1, Nat.mul_comm (2 ^ d) k]
  omega

end Verif.W

namespace Verif.BF
open Verif.Py Verif.BV Verif.P Verif.W
open Verif.A hiding Mat
open Finset

theorem card_countP (n : Nat) (a y : Nat) :
    ((range n).filter fun t => a.testBit t = true ∧ y.testBit t = true).card = (List.range n).countP (fun k => a.testBit k && y.testBit k) := by
  induction n with
  | zero => rfl
  | succ n ih =>
    rw [range_add_one, filter_insert, List.range_succ, List.countP_append, ← ih]
    by_cases h : a.testBit n = true ∧ y.testBit n = true
    · rw [if_pos h, card_insert_of_notMem (by simp)]
      simp [h.1, h.2]
    · rw [if_neg h]
      simp only [List.countP_singleton, Bool.and_eq_true, h, if_false, Nat.add_zero]

/-- **C172.** The truth table of a Boolean function rearranged by a Walsh permutation `w` is that of another function `g` with `g[w[x]] == f[x]`.  Its Walsh
spectrum is that of `f` rearranged by the transpose: the entry at `k` is the one at `w.transpose[k]` of the spectrum of `f`. -/
theorem C172_spectrum (f : Boolf) (hf : Reach f) (w : Walsh) (hw : W.Constructed w) (n : Nat) (hn : f.adicity ≤ n) (hd : w.degree ≤ n) :
    ∃ t l g v s s', f.tt (.arity n) = .ok t ∧ w.applyOnVector t.vector = .ok l ∧ newTT (.binv ⟨l⟩) = .ok g ∧ Reach g ∧ g.adicity ≤ n ∧
      (∀ x y, w.get x = .ok y → g.getItem y = f.getItem x) ∧
      w.transpose = .ok v ∧ f.walshSpectrum (.arity n) = .ok s ∧ g.walshSpectrum (.arity n) = .ok s' ∧ s.length = 2 ^ n ∧ s'.length = 2 ^ n ∧
      (∀ k < 2 ^ n, ∀ b, v.get k = .ok b → b < 2 ^ n ∧ s'[k]? = s[b]?) ∧ s'.Perm s := by
  obtain ⟨d, B, hB⟩ := hw.valid
  obtain ⟨v, v1, v2⟩ := transpose_spec hB
  have hdeg : d ≤ n := by rw [← hB.1.deg]; exact hd
  have hfs := hf.canon.toSound
  have ht := tt_arity_eq hfs hn
  obtain ⟨l, l1, l2, l3, l4⟩ := (C172_apply w hw (act d B) hB.get ((List.range (2 ^ n)).map fun i => f.eval i.testBit)).1 (by
    intro i hi
    simp only [List.length_map, List.length_range] at hi ⊢
    exact act_lt B hdeg hi)
  have hl : l.length = 2 ^ n := by simpa using l2
  obtain ⟨g, g1, g2, g3⟩ := ttDeflated_none (b := ⟨l⟩) (n := n) hl
  have hgT : newTT (.binv ⟨l⟩) = .ok g := by rw [newTT_binv]; exact g1
  have hgn : g.adicity ≤ n := g2.adicity_le (e := fun m => l.getD (valB m) false) g3
  have hval : ∀ x, g.eval (act d B x).testBit = f.eval x.testBit := by
    intro x
    have hx : x % 2 ^ n < 2 ^ n := Nat.mod_lt _ (Nat.two_pow_pos n)
    have e1 : act d B x % 2 ^ n = act d B (x % 2 ^ n) := by
      apply Nat.eq_of_testBit_eq
      intro i
      rw [Nat.testBit_mod_two_pow, testBit_act, testBit_act]
      by_cases hi : i < d
      · rw [if_pos hi, if_pos hi]
        simp only [show i < n by omega, decide_true, Bool.true_and]
        apply bsum_congr
        intro k hk
        rw [Nat.testBit_mod_two_pow]
        simp [show k < n by omega]
      · rw [if_neg hi, if_neg hi, Nat.testBit_mod_two_pow]
    rw [g3, valB_range_testBit, e1, ← eval_mod hfs hn x]
    have := l3 (x % 2 ^ n) (by simpa using hx)
    rw [List.getD_eq_getElem?_getD, this, List.getElem?_map, List.getElem?_range hx]
    rfl
  have hgr := reach_newTT hgT
  obtain ⟨s, s1, s2, s3⟩ := (C71_spectrum f hf.obj).1 n hn
  obtain ⟨s', t1, t2, t3⟩ := (C71_spectrum g hgr.obj).1 n hgn
  have hent : ∀ k < 2 ^ n, act d (tr B) k < 2 ^ n ∧ s'[k]? = s[act d (tr B) k]? := by
    intro k hk
    have hb := act_lt (tr B) hdeg hk
    refine ⟨hb, ?_⟩
    rw [t3 k hk, s3 _ hb]
    have hov : ∀ x < 2 ^ n, overlap (act d B x) k % 2 = overlap x (act d (tr B) k) % 2 := by
      intro x hx
      rw [overlap_eq (act_lt B hdeg hx), overlap_eq hx, card_countP, card_countP]
      obtain ⟨v', _, c1, _, _, _, _, _, c⟩ := C35_transpose w hw
      rw [v1] at c1
      cases c1
      exact c n hd x k _ _ (hB.get x) (v2.get k)
    have hcard : ∀ P : Nat → Prop, ∀ [DecidablePred P], (∀ a b, a % 2 = b % 2 → (P a ↔ P b)) →
        ((range (2 ^ n)).filter fun i => g.getItem i = .ok true ∧ P (overlap i k)).card =
          ((range (2 ^ n)).filter fun i => f.getItem i = .ok true ∧ P (overlap i (act d (tr B) k))).card := by
      intro P _ hP
      symm
      refine card_bij (fun x _ => act d B x) ?_ ?_ ?_
      · intro x hx
        simp only [mem_filter, mem_range] at hx ⊢
        refine ⟨act_lt B hdeg hx.1, ?_, (hP _ _ (hov x hx.1)).2 hx.2.2⟩
        rw [getItem_eq g2.toSound, hval, ← getItem_eq hfs]
        exact hx.2.1
      · intro x _ y _ e
        exact act_inj hB.2 e
      · intro y hy
        simp only [mem_filter, mem_range] at hy
        obtain ⟨x, hx, hxy⟩ : ∃ x < 2 ^ n, act d B x = y := by
          have := surj_on_of_inj_on_of_card_le (s := range (2 ^ n)) (t := range (2 ^ n)) (fun a _ => act d B a)
            (fun a ha => mem_range.2 (act_lt B hdeg (mem_range.1 ha))) (fun a b _ _ h => act_inj hB.2 h) (le_refl _) y (mem_range.2 hy.1)
          obtain ⟨x, hx, e⟩ := this
          exact ⟨x, mem_range.1 hx, e.symm⟩
        refine ⟨x, ?_, hxy⟩
        simp only [mem_filter, mem_range]
        subst hxy
        refine ⟨hx, ?_, (hP _ _ (hov x hx)).1 hy.2.2⟩
        rw [getItem_eq hfs, ← hval, ← getItem_eq g2.toSound]
        exact hy.2.1
    rw [hcard Even (fun a b h => by rw [Nat.even_iff, Nat.even_iff, h]), hcard Odd (fun a b h => by rw [Nat.odd_iff, Nat.odd_iff, h])]
  refine ⟨_, l, g, v, s, s', ht, l1, hgT, hgr, hgn, ?_, v1, s1, t1, s2, t2, ?_, ?_⟩
  · intro x y hy
    rw [hB.get] at hy
    cases hy
    rw [getItem_eq g2.toSound, getItem_eq hfs, hval]
  · intro k hk b hb
    rw [v2.get] at hb
    cases hb
    exact hent k hk
  · have e : s' = ((List.range (2 ^ n)).map (act d (tr B))).map fun i => s.getD i 0 := by
      apply List.ext_getElem?
      intro k
      by_cases hk : k < 2 ^ n
      · obtain ⟨h1, h2⟩ := hent k hk
        rw [h2, List.getElem?_map, List.getElem?_map, List.getElem?_range hk]
        simp only [Option.map_some, List.getD_eq_getElem?_getD]
        rw [List.getElem?_eq_getElem (by omega)]
        rfl
      · rw [List.getElem?_eq_none (by omega), List.getElem?_eq_none (by simpa using hk)]
    have e' : s = (List.range (2 ^ n)).map fun i => s.getD i 0 := by
      apply List.ext_getElem?
      intro k
      by_cases hk : k < 2 ^ n
      · rw [List.getElem?_map, List.getElem?_range hk]
        simp only [Option.map_some, List.getD_eq_getElem?_getD]
        rw [List.getElem?_eq_getElem (by omega)]
        rfl
      · rw [List.getElem?_eq_none (by omega), List.getElem?_eq_none (by simpa using hk)]
    rw [e]
    conv_rhs => rw [e']
    apply List.Perm.map
    rw [List.perm_ext_iff_of_nodup (List.Nodup.map (act_inj v2.2) List.nodup_range) List.nodup_range]
    intro y
    rw [List.mem_map, List.mem_range]
    constructor
    · rintro ⟨x, hx, rfl⟩
      exact act_lt _ hdeg (List.mem_range.1 hx)
    · intro hy
      obtain ⟨x, hx, e⟩ := surj_on_of_inj_on_of_card_le (s := range (2 ^ n)) (t := range (2 ^ n)) (fun a _ => act d (tr B) a)
        (fun a ha => mem_range.2 (act_lt _ hdeg (mem_range.1 ha))) (fun a b _ _ h => act_inj v2.2 h) (le_refl _) y (mem_range.2 hy)
      exact ⟨x, List.mem_range.2 (mem_range.1 hx), e.symm⟩

example : ∃ f w, Reach f ∧ f.adicity = 2 ∧ W.Constructed w ∧ w.degree = 2 ∧ [0, 1, 2, 3].map w.get = [.ok 0, .ok 1, .ok 3, .ok 2] ∧
    (w.transpose.map fun v => [0, 1, 2, 3].map v.get) = .ok [.ok 0, .ok 3, .ok 2, .ok 1] ∧ f.walshSpectrum (.arity 2) = .ok [1, -1, -1, 1] ∧
    ((newTT (.binv ⟨[false, false, true, false]⟩)).bind fun g => g.walshSpectrum (.arity 2)) = .ok [1, 1, -1, -1] := by
  refine ⟨((newTT (.binv ⟨[false, false, false, true]⟩)).toOption.getD (setConstant true)),
    ((W.newVector [1, 3]).toOption.getD neutralWalsh), reach_newTT (tt := .binv ⟨[false, false, false, true]⟩) (av := none) (ar := none) (by decide +kernel), by decide +kernel,
    ⟨{ vector := some [1, 3] }, rfl, rfl⟩, by decide +kernel, by decide +kernel, by decide +kernel, by decide +kernel, by decide +kernel⟩

end Verif.BF
