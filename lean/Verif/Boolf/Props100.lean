import Verif.Boolf.Props14
import Verif.Boolf.Linear

/-! # C176: distances to linear functions -/

namespace Verif.BF
open Verif.Py Verif.BV Verif.P Verif.W
open Verif.A hiding Mat
open Finset hiding sum_range

theorem linF_bitIndices {n m : Nat} (hm : m < 2 ^ n) (i : Nat) : linF n m i = decide ((m &&& i).bitIndices.length % 2 = 1) := by
  rw [linF_count]
  have : (m &&& i).bitIndices = (List.range n).filter fun k => m.testBit k && i.testBit k := by
    refine asc_ext (List.sortedLT_iff_pairwise.1 Nat.bitIndices_sorted) ((List.pairwise_lt_range).filter _) fun x => ?_
    rw [Nat.mem_bitIndices, Nat.testBit_and, List.mem_filter, List.mem_range]
    constructor
    · intro h
      refine ⟨?_, h⟩
      by_contra hc
      rw [testBit_of_lt hm (by omega)] at h
      cases h
    · exact fun h => h.2
  rw [this, List.countP_eq_length_filter]

theorem linF_xor (n k m i : Nat) : linF n (k ^^^ m) i = (linF n k i ^^ linF n m i) := by
  unfold linF
  induction n with
  | zero => rfl
  | succ n ih =>
    rw [W.bsum, W.bsum, W.bsum, ih, Nat.testBit_xor]
    cases k.testBit n <;> cases m.testBit n <;> cases i.testBit n <;> simp

theorem linF_mod {n m : Nat} (i : Nat) : linF n m (i % 2 ^ n) = linF n m i := by
  unfold linF
  apply W.bsum_congr
  intro k hk
  rw [Nat.testBit_mod_two_pow, decide_eq_true hk, Bool.true_and]

theorem adicity_le_keys {f : Boolf} (hf : Canon f) {n : Nat} (h : ∀ i : Nat, f.eval i.testBit = f.eval (i % 2 ^ n).testBit) : f.adicity ≤ n := by
  refine adicity_le hf fun a b hab => ?_
  have key : ∀ a : Nat → Bool, f.eval a = f.eval (valB ((List.range n).map a)).testBit := by
    intro a
    have e : f.eval a = f.eval (valB ((List.range (max n f.adicity)).map a)).testBit := by
      apply Boolf.eval_congr
      intro x hx
      have := (hf.adic f.adicity).1 le_rfl x hx
      rw [testBit_valB_map, List.getElem?_range (by omega)]
      rfl
    rw [e, h]
    congr 2
    apply Nat.eq_of_testBit_eq
    intro x
    rw [Nat.testBit_mod_two_pow, testBit_valB_map, testBit_valB_map]
    by_cases hx : x < n
    · rw [List.getElem?_range (by omega), List.getElem?_range hx]; simp [hx]
    · rw [List.getElem?_eq_none (l := List.range n) (by simpa using hx)]; simp [hx]
  rw [key a, key b]
  congr 3
  exact List.map_congr_left fun x hx => hab x (List.mem_range.1 hx)

/-- **C176.** Xoring with the linear function of Walsh index `m` permutes the distances: entry `k` becomes entry `k ^ m`. -/
theorem C176_shift (f : Boolf) (hf : Obj f) (n m : Nat) (hn : f.adicity ≤ n) (hm : m < 2 ^ n) :
    ∃ g x d e, makeLinearBoolf (some m) none none none = .ok g ∧ f.xor g = .ok x ∧ f.walshDistances (.arity n) = .ok d ∧
      x.walshDistances (.arity n) = .ok e ∧ e.length = 2 ^ n ∧ ∀ k < 2 ^ n, k ^^^ m < 2 ^ n ∧ e[k]? = d[k ^^^ m]? := by
  obtain ⟨g, g1, g2, g3⟩ := C133_walsh m none (Or.inl rfl)
  have hs := hf.good.toSound
  obtain ⟨x, x1, x2, x3⟩ := xor_spec hs g2.canon.toSound
  have hg : ∀ i : Nat, g.eval i.testBit = linF n m i := by
    intro i
    have := g3 i
    rw [getItem_eq g2.canon.toSound, Except.ok.injEq] at this
    rw [this, linF_bitIndices hm]
    simp
  have hx : ∀ i : Nat, x.eval i.testBit = (f.eval i.testBit ^^ linF n m i) := fun i => by rw [x3, hg]
  have hxn : x.adicity ≤ n := adicity_le_keys x2 fun i => by rw [hx, hx, linF_mod, eval_mod hs hn]
  refine ⟨g, x, _, _, g1, x1, distances_eq hs hn, distances_eq x2.toSound hxn, by simp, fun k hk => ?_⟩
  have hkm := Nat.xor_lt_two_pow hk hm
  refine ⟨hkm, ?_⟩
  rw [List.getElem?_map, List.getElem?_map, List.getElem?_range hk, List.getElem?_range hkm, Option.map_some, Option.map_some]
  congr 1
  refine countF_congr fun i _ => ?_
  rw [hx, linF_xor, Bool.xor_assoc, Bool.xor_comm (linF n m i)]

theorem sum_signs (n k : Nat) (v : Nat → Bool) : ∑ i ∈ range (2 ^ n), chi n i k * (1 - 2 * ((v i).toNat : Int)) =
    2 ^ n - 2 * (countF n fun i => v i ^^ linF n k i) := by
  rw [countF_card, Finset.card_filter]
  push_cast
  rw [mul_sum, show (2 : Int) ^ n = ∑ _i ∈ range (2 ^ n), 1 by simp, ← sum_sub_distrib]
  refine sum_congr rfl fun i hi => ?_
  have hi := mem_range.1 hi
  rw [chi_eq hi, linF_overlap hi]
  by_cases ho : Odd (overlap i k)
  · have he : ¬ Even (overlap i k) := Nat.not_even_iff_odd.2 ho
    cases v i <;> simp [ho, he]
  · have he : Even (overlap i k) := Nat.not_odd_iff_even.1 ho
    cases v i <;> simp [ho, he]

/-- **C176.** The squares of the differences between agreements and disagreements have the sum 4^n. -/
theorem C176_squares (f : Boolf) (hf : Obj f) (n : Nat) (hn : f.adicity ≤ n) : ∃ d, f.walshDistances (.arity n) = .ok d ∧
    ∑ k ∈ range (2 ^ n), ((2 : Int) ^ n - 2 * d.getD k 0) ^ 2 = 4 ^ n := by
  refine ⟨_, distances_eq hf.good.toSound hn, ?_⟩
  have hl : ((List.range (2 ^ n)).map fun i : Nat => 1 - 2 * ((f.eval i.testBit).toNat : Int)).length = 2 ^ n := by simp
  have hent : ∀ i < 2 ^ n, ent ((List.range (2 ^ n)).map fun i : Nat => 1 - 2 * ((f.eval i.testBit).toNat : Int)) i =
      1 - 2 * ((f.eval i.testBit).toNat : Int) := fun i hi => by
    unfold ent
    rw [List.getD_eq_getElem?_getD, List.getElem?_map, List.getElem?_range hi]
    rfl
  have hp := fwht_parseval hl
  have e1 : ∀ k ∈ range (2 ^ n), ent (fwht ((List.range (2 ^ n)).map fun i : Nat => 1 - 2 * ((f.eval i.testBit).toNat : Int))) k =
      2 ^ n - 2 * (countF n fun i => f.eval i.testBit ^^ linF n k i) := fun k hk => by
    rw [fwht_spec hl (mem_range.1 hk), ← sum_signs]
    exact sum_congr rfl fun i hi => by rw [hent i (mem_range.1 hi)]
  have e3 : ∑ i ∈ range (2 ^ n), ent ((List.range (2 ^ n)).map fun i : Nat => 1 - 2 * ((f.eval i.testBit).toNat : Int)) i *
      ent ((List.range (2 ^ n)).map fun i : Nat => 1 - 2 * ((f.eval i.testBit).toNat : Int)) i = ∑ _i ∈ range (2 ^ n), 1 :=
    sum_congr rfl fun i hi => by rw [hent i (mem_range.1 hi)]; cases f.eval i.testBit <;> rfl
  rw [sum_congr rfl fun k hk => by rw [e1 k hk], e3] at hp
  have e2 : (4 : Int) ^ n = 2 ^ n * 2 ^ n := by rw [← mul_pow]; rfl
  rw [e2]
  simp only [sum_const, card_range, nsmul_eq_mul, mul_one] at hp
  push_cast at hp
  rw [← hp]
  refine sum_congr rfl fun k hk => ?_
  rw [List.getD_eq_getElem?_getD, List.getElem?_map, List.getElem?_range (mem_range.1 hk), Option.map_some, Option.getD_some, pow_two]

/-- **C176.** Every function agrees or disagrees with some linear function at clearly more than half of the places: no function is further than
2^(n-1) - 2^(n/2-1) from all linear functions and their complements. -/
theorem C176_covering (f : Boolf) (hf : Obj f) (n : Nat) (hn : f.adicity ≤ n) : ∃ d, f.walshDistances (.arity n) = .ok d ∧
    ∃ k < 2 ^ n, ∃ x : Nat, d[k]? = some x ∧ (2 : Int) ^ n ≤ (2 ^ n - 2 * x) ^ 2 := by
  obtain ⟨d, d1, d2⟩ := C176_squares f hf n hn
  have hl : d.length = 2 ^ n := by
    obtain ⟨d', e1, e2, _⟩ := (C80_distances f hf).1 n hn
    rw [d1] at e1
    cases e1
    exact e2
  refine ⟨d, d1, ?_⟩
  by_contra hc
  push Not at hc
  have : ∑ k ∈ range (2 ^ n), ((2 : Int) ^ n - 2 * d.getD k 0) ^ 2 < ∑ _k ∈ range (2 ^ n), (2 : Int) ^ n := by
    refine sum_lt_sum_of_nonempty (by simp) fun k hk => ?_
    have hk := mem_range.1 hk
    have hk' : k < d.length := by omega
    have := hc k hk _ (List.getElem?_eq_getElem hk')
    rwa [List.getD_eq_getElem?_getD, List.getElem?_eq_getElem hk', Option.getD_some]
  rw [d2] at this
  simp only [sum_const, card_range, nsmul_eq_mul] at this
  push_cast at this
  rw [← mul_pow] at this
  norm_num at this

/-- **C176.** The distances of the complement are the differences to 2^n. -/
theorem C176_complement (f : Boolf) (hf : Obj f) (n : Nat) (hn : f.adicity ≤ n) :
    ∃ g d e, f.complement = .ok g ∧ f.walshDistances (.arity n) = .ok d ∧ g.walshDistances (.arity n) = .ok e ∧ e.length = 2 ^ n ∧
      ∀ k < 2 ^ n, ∃ x y, d[k]? = some x ∧ e[k]? = some y ∧ x + y = 2 ^ n := by
  have hs := hf.good.toSound
  obtain ⟨g, g1, g2, g3⟩ := complement_spec hs
  have hgn : g.adicity ≤ n := adicity_le_keys g2 fun i => by rw [g3, g3, eval_mod hs hn]
  refine ⟨g, _, _, g1, distances_eq hs hn, distances_eq g2.toSound hgn, by simp, fun k hk => ?_⟩
  refine ⟨_, _, by rw [List.getElem?_map, List.getElem?_range hk]; rfl, by rw [List.getElem?_map, List.getElem?_range hk]; rfl, ?_⟩
  show (countF n fun i => f.eval i.testBit ^^ linF n k i) + (countF n fun i => g.eval i.testBit ^^ linF n k i) = _
  rw [countF_card, countF_card]
  have := Finset.card_filter_add_card_filter_not (s := range (2 ^ n)) (fun i => (f.eval i.testBit ^^ linF n k i) = true)
  rw [card_range] at this
  conv_rhs => rw [← this]
  congr 2
  refine filter_congr fun i _ => ?_
  rw [g3]
  cases f.eval i.testBit <;> cases linF n k i <;> simp

/-- **C176.** A function is determined by its distances. -/
theorem C176_determined (f g : Boolf) (hf : Reach f) (hg : Reach g) (n : Nat) (hfn : f.adicity ≤ n) (hgn : g.adicity ≤ n)
    (h : f.walshDistances (.arity n) = g.walshDistances (.arity n)) : f = g := by
  obtain ⟨d, w, d1, w1, h1⟩ := C80_distances_spectrum f hf.obj n hfn
  obtain ⟨e, v, e1, v1, h2⟩ := C80_distances_spectrum g hg.obj n hgn
  rw [d1, e1] at h
  cases h
  obtain ⟨w', w1', w2', _⟩ := (C71_spectrum f hf.obj).1 n hfn
  obtain ⟨v', v1', v2', _⟩ := (C71_spectrum g hg.obj).1 n hgn
  rw [w1] at w1'
  cases w1'
  rw [v1] at v1'
  cases v1'
  have hwv : w = v := by
    apply List.ext_getElem?
    intro k
    by_cases hk : k < 2 ^ n
    · obtain ⟨x, y, a1, a2, a3⟩ := h1 k hk
      obtain ⟨x', y', b1, b2, b3⟩ := h2 k hk
      rw [a1, Option.some.injEq] at b1
      subst b1
      rw [a2, b2]
      congr 1
      linarith
    · rw [List.getElem?_eq_none (by omega), List.getElem?_eq_none (by omega)]
  have r1 := C71_rebuild f hf n hfn w w1
  have r2 := C71_rebuild g hg n hgn v v1
  rw [hwv, r2] at r1
  cases r1
  rfl

/-- the majority of three atoms: xoring with the first atom exchanges neighbouring distances -/
example : (do
    let f ← newTT (.list [0, 0, 0, 1, 0, 1, 1, 1])
    let x ← f.xor (← makeLinearBoolf (some 1) none none none)
    return (← f.walshDistances (.arity 3), ← x.walshDistances (.arity 3))) = .ok ([4, 2, 2, 4, 2, 4, 4, 6], [2, 4, 4, 2, 4, 2, 6, 4]) := by
  decide +kernel

end Verif.BF
