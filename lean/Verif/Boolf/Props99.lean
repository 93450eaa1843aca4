import Verif.Boolf.Props94
import Verif.Boolf.Props12
import Verif.Boolf.Props45

/-! # C175: few digits in the algebraic normal form mean many true places -/

namespace Verif.BF
open Verif.Py Verif.BV Verif.P Verif.W
open Verif.A hiding Mat

theorem ones_low {n k : Nat} (hk : k < 2 ^ n) : ones (n + 1) k = ones n k := by
  unfold ones
  rw [List.range_succ, List.countP_append]
  simp [Nat.testBit_lt_two_pow hk]

theorem ones_high {n k : Nat} (hk : k < 2 ^ n) : ones (n + 1) (2 ^ n + k) = ones n k + 1 := by
  unfold ones
  rw [List.range_succ, List.countP_append]
  have h : (List.range n).countP (2 ^ n + k).testBit = (List.range n).countP k.testBit := by
    apply List.countP_congr
    intro i hi
    have := List.mem_range.1 hi
    rw [testBit_high hk, if_neg (by omega)]
  rw [h]
  simp [testBit_high hk]

theorem countF_triangle (n : Nat) (P Q : Nat → Bool) : countF n Q ≤ countF n P + countF n fun i => P i ^^ Q i := by
  rw [countF_card, countF_card, countF_card]
  refine le_trans (Finset.card_le_card ?_) (Finset.card_union_le _ _)
  intro i hi
  rw [Finset.mem_union, Finset.mem_filter, Finset.mem_filter]
  rw [Finset.mem_filter] at hi
  cases hP : P i
  · exact Or.inr ⟨hi.1, by rw [hi.2]; rfl⟩
  · exact Or.inl ⟨hi.1, rfl⟩

/-- The minimal weight of the Reed-Muller code. -/
theorem reed_muller (n d : Nat) (v : Nat → Bool) (hd : ∀ k < 2 ^ n, v k = true → ones n k ≤ d) (h0 : ∃ k < 2 ^ n, v k = true) :
    2 ^ (n - d) ≤ countF n (subXor n v) := by
  induction n generalizing d v with
  | zero =>
    obtain ⟨k, hk, hv⟩ := h0
    obtain rfl : k = 0 := by simpa using hk
    rw [countF_card]
    simp [subXor_zero, hv]
  | succ n ih =>
    rw [countF_succ]
    have hp := two_pow_succ n
    have e1 : countF n (subXor (n + 1) v) = countF n (subXor n v) := countF_congr fun i hi => subXor_low v hi
    have e2 : (countF n fun i => subXor (n + 1) v (2 ^ n + i)) = countF n fun i => subXor n v i ^^ subXor n (fun i => v (2 ^ n + i)) i :=
      countF_congr fun i hi => subXor_high v hi
    rw [e1, e2]
    by_cases hh : ∃ k < 2 ^ n, v (2 ^ n + k) = true
    · obtain ⟨k, hk, hv⟩ := hh
      have h1 := hd (2 ^ n + k) (by omega) hv
      rw [ones_high hk] at h1
      have h2 := ih (d - 1) (fun i => v (2 ^ n + i)) (fun i hi hvi => by
        have := hd (2 ^ n + i) (by omega) hvi
        rw [ones_high hi] at this
        omega) ⟨k, hk, hv⟩
      rw [show n + 1 - d = n - (d - 1) by omega]
      exact le_trans h2 (countF_triangle n _ _)
    · have hf : ∀ i < 2 ^ n, v (2 ^ n + i) = false := fun i hi => by
        by_contra hc
        exact hh ⟨i, hi, by simpa using hc⟩
      have e3 : (countF n fun i => subXor n v i ^^ subXor n (fun i => v (2 ^ n + i)) i) = countF n (subXor n v) :=
        countF_congr fun i _ => by rw [subXor_congr hf, subXor_false, Bool.xor_false]
      rw [e3]
      obtain ⟨k, hk, hv⟩ := h0
      have hkn : k < 2 ^ n := by
        by_contra hc
        have := hf (k - 2 ^ n) (by omega)
        rw [show 2 ^ n + (k - 2 ^ n) = k by omega, hv] at this
        cases this
      have := ih d v (fun i hi hvi => by have := hd i (by omega) hvi; rwa [ones_low hi] at this) ⟨k, hkn, hv⟩
      have h2 : 2 ^ (n + 1 - d) ≤ 2 ^ (n - d) + 2 ^ (n - d) := by
        rw [← two_pow_succ]
        exact Nat.pow_le_pow_right (by omega) (by omega)
      omega

theorem zhe_eval {f : Boolf} (hf : Obj f) {n : Nat} (hn : f.adicity ≤ n) : ∃ z, f.zhe = .ok z ∧ z < 2 ^ 2 ^ n ∧
    ∀ j < 2 ^ n, f.eval j.testBit = subXor n z.testBit j := by
  obtain ⟨z, z1, z2, z3⟩ := zhe_any hf.good.toSound hn
  exact ⟨z, z1, z2, fun j hj => by rw [subXor_congr z3, subXor_subXor _ _ hj]⟩

/-- **C175.** Two different functions whose algebraic normal forms have no products of more than `d` atoms differ at 2^(n-d) places
or more. -/
theorem C175_distance (f g : Boolf) (hf : Obj f) (hg : Obj g) (n d : Nat) (hfn : f.adicity ≤ n) (hgn : g.adicity ≤ n) (x y : Nat)
    (hx : f.zhe = .ok x) (hy : g.zhe = .ok y) (hxd : ∀ k, x.testBit k = true → ones n k ≤ d) (hyd : ∀ k, y.testBit k = true → ones n k ≤ d)
    (hne : x ≠ y) : 2 ^ (n - d) ≤ ((Finset.range (2 ^ n)).filter fun i : Nat => f.getItem i ≠ g.getItem i).card := by
  obtain ⟨z, z1, z2, z3⟩ := zhe_eval hf hfn
  obtain ⟨w, w1, w2, w3⟩ := zhe_eval hg hgn
  rw [hx] at z1
  rw [hy] at w1
  cases z1
  cases w1
  refine le_trans (reed_muller n d (fun k => x.testBit k ^^ y.testBit k) (fun k _ h => ?_) ?_) (le_of_eq ?_)
  · cases h1 : x.testBit k
    · cases h2 : y.testBit k
      · simp [h1, h2] at h
      · exact hyd k h2
    · exact hxd k h1
  · by_contra hc
    apply hne
    apply Nat.eq_of_testBit_eq
    intro i
    by_cases hi : i < 2 ^ n
    · by_contra h
      exact hc ⟨i, hi, by cases h1 : x.testBit i <;> cases h2 : y.testBit i <;> simp_all⟩
    · rw [testBit_of_lt z2 (by omega), testBit_of_lt w2 (by omega)]
  · rw [countF_card]
    congr 1
    apply Finset.filter_congr
    intro i hi
    have hi := Finset.mem_range.1 hi
    rw [subXor_xor, ← z3 i hi, ← w3 i hi, getItem_eq hf.good.toSound, getItem_eq hg.good.toSound]
    cases f.eval i.testBit <;> cases g.eval i.testBit <;> simp

/-- **C175.** A function other than the contradiction whose algebraic normal form has no products of more than `d` atoms is true at
2^(n-d) places or more. -/
theorem C175_weight (f : Boolf) (hf : Obj f) (n d : Nat) (hn : f.adicity ≤ n) (z : Nat) (hz : f.zhe = .ok z)
    (hd : ∀ k, z.testBit k = true → ones n k ≤ d) (h0 : z ≠ 0) : 2 ^ (n - d) ≤ truePlaces f n := by
  obtain ⟨w, w1, w2, w3⟩ := zhe_eval hf hn
  rw [hz] at w1
  cases w1
  rw [truePlaces_eq hf.good.toSound, countF_congr w3]
  refine reed_muller n d _ (fun k _ h => hd k h) ?_
  by_contra hc
  apply h0
  apply Nat.eq_of_testBit_eq
  intro i
  rw [Nat.zero_testBit]
  by_cases hi : i < 2 ^ n
  · by_contra h
    exact hc ⟨i, hi, by simpa using h⟩
  · exact testBit_of_lt w2 (by omega)

theorem countF_false (n : Nat) : (countF n fun _ => false) = 0 := by
  rw [countF_card]; simp

theorem countF_sub {n k : Nat} (hk : k < 2 ^ n) : countF n (fun j => sub k j) = 2 ^ (n - ones n k) := by
  induction n generalizing k with
  | zero =>
    obtain rfl : k = 0 := by simpa using hk
    rfl
  | succ n ih =>
    rw [countF_succ]
    have hp := two_pow_succ n
    by_cases h : k < 2 ^ n
    · have e : (countF n fun i => sub k (2 ^ n + i)) = countF n fun j => sub k j :=
        countF_congr fun i hi => by rw [sub_low h, Nat.add_mod_left, Nat.mod_eq_of_lt hi]
      rw [e, ih h, ones_low h, ← two_pow_succ]
      congr 1
      have := ones_le n k
      omega
    · obtain ⟨m, rfl⟩ : ∃ m, k = 2 ^ n + m := ⟨k - 2 ^ n, by omega⟩
      have hm : m < 2 ^ n := by omega
      have e1 : (countF n fun j => sub (2 ^ n + m) j) = 0 := by
        rw [← countF_false n]
        exact countF_congr fun i hi => by rw [sub_high hm, Nat.testBit_lt_two_pow hi, Bool.false_and]
      have e2 : (countF n fun j => sub (2 ^ n + m) (2 ^ n + j)) = countF n fun j => sub m j :=
        countF_congr fun i hi => by rw [sub_high hm, testBit_high hi, if_pos rfl, Bool.true_and, Nat.add_mod_left, Nat.mod_eq_of_lt hi]
      rw [e1, e2, ih hm, ones_high hm, Nat.zero_add]
      congr 1
      omega

/-- **C175.** The bound is attained by products of atoms. -/
theorem C175_product (k : Nat) : ∃ f, new { zhe := some ((2 ^ k : Nat) : Int) } = .ok f ∧ f.zhe = .ok (2 ^ k) ∧ Reach f ∧
    ∀ n, f.adicity ≤ n → truePlaces f n = 2 ^ (n - ones n k) := by
  obtain ⟨f, f1, f2, f3, _⟩ := C50_zhe_index (2 ^ k)
  refine ⟨f, f1, f3, f2, fun n hn => ?_⟩
  obtain ⟨w, w1, w2, w3⟩ := zhe_eval f2.obj hn
  rw [f3] at w1
  cases w1
  have hk : k < 2 ^ n := (Nat.pow_lt_pow_iff_right (by omega)).1 w2
  rw [truePlaces_eq f2.canon.toSound, countF_congr w3, ← countF_sub hk]
  refine countF_congr fun i _ => ?_
  rw [← subXor_single hk]
  refine subXor_congr (fun j _ => ?_) i
  rw [Nat.testBit_two_pow, decide_eq_decide]
  exact eq_comm

/-- **C175.** If a function other than the contradiction is true only at places with at most `d` digits 1, then its twin is true at
2^(n-d) places or more. -/
theorem C175_twin (f : Boolf) (hf : Obj f) (n d : Nat) (hn : f.adicity ≤ n) (hd : ∀ k < 2 ^ n, f.getItem (k : Nat) = .ok true → ones n k ≤ d)
    (h0 : ∃ k : Nat, f.getItem k = .ok true) : ∃ g, f.twin (some (n : Int)) = .ok g ∧ 2 ^ (n - d) ≤ truePlaces g n := by
  obtain ⟨g, g1, g2, g3, g4, g5⟩ := twin_spec hf.good.toSound hn
  refine ⟨g, g1, ?_⟩
  rw [truePlaces_eq g2.toSound, countF_congr g5]
  refine reed_muller n d _ (fun k hk h => hd k hk (by rw [getItem_eq hf.good.toSound, h])) ?_
  obtain ⟨k, hk⟩ := h0
  rw [getItem_eq hf.good.toSound, ← eval_mod hf.good.toSound hn, Except.ok.injEq] at hk
  exact ⟨k % 2 ^ n, Nat.mod_lt _ (Nat.two_pow_pos n), hk⟩

/-- x & y ^ z has two products, none of them with three atoms, and four true places among eight (two are guaranteed). -/
example : (new { zhe := some 24 }).bind (fun f => do return (← f.zhe, (← f.tt (.arity 3)).weight)) = .ok (24, 4) ∧
    (∀ k < 8, (24 : Nat).testBit k = true → ones 3 k ≤ 2) := by decide +kernel

end Verif.BF
