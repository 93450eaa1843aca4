import Verif.Boolf.Props46
import Verif.SigPerm.Schoute

/-! # C196: signed permutations of atoms, truth tables and Zhegalkin indices -/

namespace Verif.BF
open Verif.Py Verif.BV Verif.A Verif.P

theorem lit_schoute {s : SG.SigPerm} {q : Perm}
    (hq : ∀ n i, (0 ≤ s.value i → (q.get n).testBit (s.value i).toNat = n.testBit i) ∧
      (s.value i < 0 → (q.get n).testBit (inv (s.value i)).toNat = !n.testBit i)) (key x : Nat) :
    lit (q.get key).testBit (s.value x) = key.testBit x := by
  unfold lit logicAbs
  by_cases h : s.value x < 0
  · have := (hq key x).2 h
    rw [if_pos h]
    rw [this, decide_eq_true h, Bool.xor_true, Bool.not_not]
  · have := (hq key x).1 (by omega)
    rw [if_neg h]
    simp [this, h]

/-- **C196.** `f.apply_sigperm(s)[s.schoute_perm[key]] == f[key]`: the truth table is rearranged by the Schoute permutation. -/
theorem C196_table (f : Boolf) (hf : Obj f) (s : SG.SigPerm) (hs : SG.Finite s) :
    ∃ g q, f.applySigperm (.sigperm s) = .ok g ∧ s.schoutePerm = .ok q ∧ ∀ key, g.getItem (q.get key) = f.getItem key := by
  obtain ⟨g, g1, g2, _, g4⟩ := action hf hs
  obtain ⟨q, q1, _, q3, _⟩ := SG.C135_signed s hs
  refine ⟨g, q, g1, q1, fun key => ?_⟩
  rw [getItem_eq g2.good.toSound, getItem_eq hf.good.toSound, g4]
  exact congrArg Except.ok (Boolf.eval_congr fun x _ => lit_schoute q3 key x)

/-- **C196.** Without negations the binary digits of the Zhegalkin index are rearranged in the same way. -/
theorem C196_zhe (f : Boolf) (hf : Obj f) (s : SG.SigPerm) (hs : SG.Finite s) (hu : s.unsigned = true) :
    ∃ g q z y, f.applySigperm (.sigperm s) = .ok g ∧ s.schoutePerm = .ok q ∧ f.zhe = .ok z ∧ g.zhe = .ok y ∧
      ∀ k, y.testBit (q.get k) = z.testBit k := by
  obtain ⟨g, g1, g2, _, g4⟩ := action hf hs
  obtain ⟨q, q1, q2, q3, _⟩ := SG.C135_signed s hs
  obtain ⟨z, z1, _⟩ := zhe_spec hf.good.toSound
  obtain ⟨y, y1, _⟩ := zhe_spec g2.good.toSound
  refine ⟨g, q, z, y, g1, q1, z1, y1, fun k => ?_⟩
  have hpos := (SG.C62_flags s hs).2.1.1 hu
  have hv : ∀ i, s.value i = s.perm.get i := fun i => by
    have h1 := hpos i
    rw [SG.value_eq_val hs] at h1 ⊢
    have h2 := SG.nabs_val s i
    rcases SG.nabs_cases (s.val i) with ⟨_, h⟩ | ⟨h, _⟩
    · rw [h, h2]
    · omega
  have hk : ∃ N, f.adicity ≤ N ∧ g.adicity ≤ N ∧ s.length ≤ N ∧ k < N := ⟨max (max f.adicity g.adicity) (max s.length (k + 1)), by omega, by omega, by omega, by omega⟩
  obtain ⟨N, n1, n2, n3, n4⟩ := hk
  have hbelow : Below N s.perm.get := by
    refine ⟨fun i hi => ?_, hs.wf.constructed.wf.get_bijective.1⟩
    refine hs.wf.constructed.wf.maps_below N (Or.inl ⟨hs.wf.finite, ?_⟩) i hi
    have := hs.wf.length
    omega
  have hbit : ∀ n i, (q.get n).testBit (s.perm.get i) = n.testBit i := fun n i => by
    have := (q3 n i).1 (hpos i)
    rwa [hv, Int.toNat_natCast] at this
  have hkN : k < 2 ^ N := lt_trans n4 Nat.lt_two_pow_self
  have hpre : pre N s.perm.get (q.get k) = k := (eq_pre hkN fun x _ => (hbit k x).symm).symm
  have hqk : q.get k < 2 ^ N := Nat.lt_pow_two_of_testBit _ fun i hi => by
    obtain ⟨j, rfl⟩ := hs.wf.constructed.wf.get_bijective.2 i
    rw [hbit]
    have hj : N ≤ j := by
      by_contra hc
      have := hbelow.lt j (by omega)
      omega
    exact testBit_of_lt hkN hj
  rw [zhe_Z hf.good.toSound n1] at z1
  rw [zhe_Z g2.good.toSound n2] at y1
  cases z1
  cases y1
  rw [testBit_Z hkN, testBit_Z hqk]
  unfold coef
  have hg : ∀ i < 2 ^ N, g.eval i.testBit = f.eval (pre N s.perm.get i).testBit := fun i _ => by
    rw [g4]
    refine Boolf.eval_congr fun x hx => ?_
    rw [testBit_pre (lt_of_lt_of_le ((hf.good.toSound.adic _).1 le_rfl x hx) n1), hv]
    exact lit_nat _ _
  rw [subXor_congr hg, subXor_pre hbelow (fun i => f.eval i.testBit), hpre]

/-- The function x0 and x1 under the cycle 0 → 2 → 1 → 0: the exponent 3 of its Zhegalkin index becomes 5. -/
example : (do
    let f ← new { zhe := some 8 }
    let s ← SG.new { sequence := some [2, 0, 1] }
    let q ← s.schoutePerm
    let g ← f.applySigperm (.sigperm s)
    return (q.get 3, ← g.zhe, s.unsigned)) = .ok (5, 32, true) := by decide +kernel

end Verif.BF
