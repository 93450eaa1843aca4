import Verif.Boolf.Props104
import Verif.Boolf.Props98
import Verif.Boolf.Props45
import Verif.Boolf.Props12

/-! # C183: the lengths of the products in the algebraic normal form -/

namespace Verif.BF
open Verif.Py Verif.BV Verif.P Verif.W
open Verif.A hiding Mat

/-- The exponents of the Zhegalkin index have at most `d` digits 1, so the algebraic normal form has no products of more than `d` atoms. -/
def ShortAnf (z d : Nat) : Prop := ∀ k, z.testBit k = true → ∀ n, ones n k ≤ d

/-- the same for functions of places below `2 ** n` -/
def Deg (n d : Nat) (u : Nat → Bool) : Prop := ∀ j < 2 ^ n, subXor n u j = true → ones n j ≤ d

theorem ones_bound {n k : Nat} (hk : k < 2 ^ n) (m : Nat) : ones m k ≤ ones n k := by
  unfold ones
  rw [List.countP_eq_length_filter, List.countP_eq_length_filter, filter_range_card, filter_range_card]
  apply Finset.card_le_card
  intro b hb
  rw [Finset.mem_filter, Finset.mem_range] at hb ⊢
  refine ⟨?_, hb.2⟩
  by_contra hc
  rw [testBit_of_lt hk (by omega)] at hb
  exact absurd hb.2 (by decide)

theorem short_iff {f : Boolf} (h : Sound f) {n : Nat} (hn : f.adicity ≤ n) {z : Nat} (hz : f.zhe = .ok z) (d : Nat) :
    ShortAnf z d ↔ Deg n d fun i => f.eval i.testBit := by
  obtain ⟨z', z1, z2, z3⟩ := zhe_any h hn
  rw [hz] at z1
  cases z1
  constructor
  · intro hs j hj hu
    exact hs j (by rw [z3 j hj]; exact hu) n
  · intro hd k hk m
    have hkn : k < 2 ^ n := by
      by_contra hc
      rw [testBit_of_lt z2 (by omega)] at hk
      cases hk
    exact le_trans (ones_bound hkn m) (hd k hkn (by rw [← z3 k hkn]; exact hk))

namespace Deg
variable {n d e : Nat} {u v : Nat → Bool}

theorem mono (h : Deg n d u) (hde : d ≤ e) : Deg n e u := fun j hj hu => le_trans (h j hj hu) hde

theorem congr (h : Deg n d u) (he : ∀ i < 2 ^ n, v i = u i) : Deg n d v := fun j hj hu => h j hj (by rw [← subXor_congr he]; exact hu)

theorem xor (h : Deg n d u) (h' : Deg n d v) : Deg n d fun i => u i ^^ v i := by
  intro j hj hu
  rw [subXor_xor] at hu
  cases hx : subXor n u j with
  | true => exact h j hj hx
  | false =>
    rw [hx, Bool.false_xor] at hu
    exact h' j hj hu

theorem const (c : Bool) : Deg n d fun _ => c := by
  intro j hj hu
  cases c with
  | false => rw [subXor_false] at hu; cases hu
  | true =>
    rw [subXor_true hj, decide_eq_true_eq] at hu
    subst hu
    unfold ones
    rw [List.countP_eq_zero.2 (by simp)]
    exact Nat.zero_le d

theorem ite (c : Bool) (h : c = true → Deg n d u) : Deg n d fun i => c && u i := by
  cases c with
  | true => simpa using h rfl
  | false => simpa using const (n := n) (d := d) false

theorem sum {α : Type} (L : List α) (F : α → Nat → Bool) (h : ∀ a ∈ L, Deg n d (F a)) : Deg n d fun i => xorSum (L.map fun a => F a i) := by
  induction L with
  | nil => exact const false
  | cons a L ih =>
    exact (h a (by simp)).xor (ih fun b hb => h b (by simp [hb]))

theorem monomial {m : Nat} (hm : m < 2 ^ n) (hd : ones n m ≤ d) : Deg n d (sub m) := by
  intro j hj hu
  rw [subXor_congr (w := subXor n fun i => decide (i = m)) (fun i _ => (subXor_single hm i).symm), subXor_subXor _ _ hj, decide_eq_true_eq] at hu
  rw [hu]
  exact hd

theorem expand (u : Nat → Bool) {i : Nat} (hi : i < 2 ^ n) : u i = xorSum ((List.range (2 ^ n)).map fun a => subXor n u a && sub a i) := by
  rw [← subXor_subXor n u hi]
  conv_lhs => rw [subXor]

theorem mul (h : Deg n d u) (h' : Deg n e v) : Deg n (d + e) fun i => u i && v i := by
  refine congr (u := fun i => xorSum ((List.range (2 ^ n)).map fun a => subXor n u a &&
      xorSum ((List.range (2 ^ n)).map fun b => subXor n v b && sub (a ||| b) i))) ?_ ?_
  · refine sum _ _ fun a ha => ite _ fun hu => sum _ _ fun b hb => ite _ fun hv => ?_
    have ha := List.mem_range.1 ha
    have hb := List.mem_range.1 hb
    exact monomial (Nat.or_lt_two_pow ha hb) (le_trans (ones_or n a b) (Nat.add_le_add (h a ha hu) (h' b hb hv)))
  · intro i hi
    rw [expand u hi, Bool.and_comm, ← xorSum_and_left]
    apply xorSum_congr
    intro a _
    conv_lhs => rw [expand v hi]
    rw [Bool.and_comm, Bool.and_assoc, ← xorSum_and_left]
    congr 1
    apply xorSum_congr
    intro b _
    have : sub (a ||| b) i = (sub a i && sub b i) := by
      rw [Bool.eq_iff_iff, Bool.and_eq_true, sub_iff, sub_iff, sub_iff]
      constructor
      · exact fun h => ⟨fun k hk => h k (by rw [Nat.testBit_or, hk, Bool.true_or]), fun k hk => h k (by rw [Nat.testBit_or, hk, Bool.or_true])⟩
      · intro h k hk
        rw [Nat.testBit_or, Bool.or_eq_true] at hk
        exact hk.elim (h.1 k) (h.2 k)
    rw [this]
    cases sub a i <;> cases sub b i <;> simp

theorem digit {b : Nat} (hb : b < n) : Deg n 1 fun i => i.testBit b := by
  have := monomial (n := n) (Nat.pow_lt_pow_right (a := 2) (by omega) hb) (ones_pow n b)
  exact this.congr fun i _ => (sub_pow b i).symm

/-- functions of degree `e` substituted in a function of degree `d` -/
theorem subst {m : Nat} {G : Nat → Nat → Bool} (h : Deg m d u) (hG : ∀ b < m, Deg n e (G b)) :
    Deg n (d * e) fun i => u (valB ((List.range m).map fun b => G b i)) := by
  have hprod : ∀ (k : Nat) (L : List Nat), (∀ b ∈ L, b < m) → Deg n (L.countP k.testBit * e) fun i => L.all fun b => !k.testBit b || G b i := by
    intro k L hL
    induction L with
    | nil => exact const true
    | cons b L ih =>
      have ih := ih fun b hb => hL b (by simp [hb])
      cases hk : k.testBit b with
      | false => simpa [hk] using ih
      | true =>
        have := (hG b (hL b (by simp))).mul ih
        simp only [List.all_cons, hk, Bool.not_true, Bool.false_or, List.countP_cons_of_pos, Nat.add_mul, Nat.one_mul]
        exact this.mono (by omega)
  refine congr (u := fun i => xorSum ((List.range (2 ^ m)).map fun k => subXor m u k && (List.range m).all fun b => !k.testBit b || G b i)) ?_ ?_
  · refine sum _ _ fun k hk => ite _ fun hu => (hprod k (List.range m) fun b hb => List.mem_range.1 hb).mono ?_
    exact Nat.mul_le_mul_right e (h k (List.mem_range.1 hk) hu)
  · intro i hi
    rw [expand u (BF.valB_range_lt _ _)]
    apply xorSum_congr
    intro k hk
    congr 1
    rw [Bool.eq_iff_iff, sub_iff, List.all_eq_true]
    constructor
    · intro h b hb
      have hb := List.mem_range.1 hb
      cases hkb : k.testBit b with
      | false => rfl
      | true =>
        have := h b hkb
        rw [testBit_valB_range] at this
        simpa [hb] using this
    · intro h b hkb
      have hb : b < m := by
        by_contra hc
        rw [testBit_of_lt (List.mem_range.1 hk) (by omega)] at hkb
        cases hkb
      have := h b (List.mem_range.2 hb)
      rw [hkb] at this
      rw [testBit_valB_range]
      simpa [hb] using this

theorem parity (A : List Nat) (hA : ∀ b ∈ A, b < n) : Deg n 1 (BF.parity A) := by
  induction A with
  | nil => exact (const false).congr fun i _ => rfl
  | cons b A ih =>
    refine ((digit (hA b (by simp))).xor (ih fun c hc => hA c (by simp [hc]))).congr fun i _ => ?_
    rw [parity_cons]

/-- functions that respect exclusive ors -/
theorem additive (g : Nat → Bool) (hg : ∀ x y, g (x ^^^ y) = (g x ^^ g y)) : Deg n 1 g := by
  have h0 : g 0 = false := by
    have := hg 0 0
    rw [Nat.xor_self, Bool.xor_self] at this
    exact this
  refine (parity ((List.range n).filter fun p => g (2 ^ p)) fun b hb => List.mem_range.1 (List.mem_filter.1 hb).1).congr fun i hi => ?_
  rw [← affine_parity g h0 hg]
  congr 1
  apply Nat.eq_of_testBit_eq
  intro q
  rw [testBit_mask List.nodup_range]
  by_cases hq : q < n
  · simp [hq]
  · rw [testBit_of_lt hi (by omega)]
    simp

end Deg

/-- **C183.** Products in the algebraic normal forms of negation, exclusive or, conjunction and disjunction. -/
theorem C183_operators (f g : Boolf) (hf : Obj f) (hg : Obj g) (x y d e : Nat) (hx : f.zhe = .ok x) (hy : g.zhe = .ok y) (hd : ShortAnf x d) (he : ShortAnf y e) :
    (∃ r z, f.complement = .ok r ∧ r.zhe = .ok z ∧ ShortAnf z d) ∧
    (∃ r z, f.xor g = .ok r ∧ r.zhe = .ok z ∧ ShortAnf z (max d e)) ∧
    (∃ r z, f.and g = .ok r ∧ r.zhe = .ok z ∧ ShortAnf z (d + e)) ∧
    (∃ r z, f.or g = .ok r ∧ r.zhe = .ok z ∧ ShortAnf z (d + e)) := by
  have sf := hf.good.toSound
  have sg := hg.good.toSound
  have key : ∀ {r : Boolf} (hr : Canon r) (n c : Nat), r.adicity ≤ n → (Deg n c fun i => r.eval i.testBit) → ∃ z, r.zhe = .ok z ∧ ShortAnf z c := by
    intro r hr n c hn hdeg
    obtain ⟨z, hz, _⟩ := zhe_any hr.toSound hn
    exact ⟨z, hz, (short_iff hr.toSound hn hz c).2 hdeg⟩
  have lift : ∀ n, f.adicity ≤ n → g.adicity ≤ n → (Deg n d fun i => f.eval i.testBit) ∧ Deg n e fun i => g.eval i.testBit :=
    fun n h1 h2 => ⟨(short_iff sf h1 hx d).1 hd, (short_iff sg h2 hy e).1 he⟩
  obtain ⟨r1, a1, a2, a3⟩ := complement_spec sf
  obtain ⟨r2, b1, b2, b3⟩ := xor_spec sf sg
  obtain ⟨r3, c1, c2, c3⟩ := and_spec sf sg
  obtain ⟨r4, d1, d2, d3⟩ := or_spec sf sg
  obtain ⟨n, n1, n2, n3, n4, n5, n6⟩ : ∃ n, f.adicity ≤ n ∧ g.adicity ≤ n ∧ r1.adicity ≤ n ∧ r2.adicity ≤ n ∧ r3.adicity ≤ n ∧ r4.adicity ≤ n :=
    ⟨f.adicity + g.adicity + r1.adicity + r2.adicity + r3.adicity + r4.adicity, by omega, by omega, by omega, by omega, by omega, by omega⟩
  obtain ⟨h1, h2⟩ := lift n n1 n2
  refine ⟨?_, ?_, ?_, ?_⟩
  · obtain ⟨z, z1, z2⟩ := key a2 n d n3 (((Deg.const true).xor h1).congr fun i _ => by rw [a3]; cases f.eval i.testBit <;> rfl)
    exact ⟨r1, z, a1, z1, z2⟩
  · obtain ⟨z, z1, z2⟩ := key b2 n _ n4 (((h1.mono (le_max_left d e)).xor (h2.mono (le_max_right d e))).congr fun i _ => b3 _)
    exact ⟨r2, z, b1, z1, z2⟩
  · obtain ⟨z, z1, z2⟩ := key c2 n _ n5 ((h1.mul h2).congr fun i _ => c3 _)
    exact ⟨r3, z, c1, z1, z2⟩
  · obtain ⟨z, z1, z2⟩ := key d2 n _ n6 ((((h1.mono (Nat.le_add_right d e)).xor (h2.mono (Nat.le_add_left e d))).xor (h1.mul h2)).congr fun i _ => by
      rw [d3]; cases f.eval i.testBit <;> cases g.eval i.testBit <;> rfl)
    exact ⟨r4, z, d1, z1, z2⟩

theorem action_deg {f g : Boolf} (hf : Obj f) (hg : Obj g) {s : SG.SigPerm} (h : ∀ a, g.eval a = f.eval fun x => lit a (s.value x))
    {z z' d : Nat} (hz : f.zhe = .ok z) (hz' : g.zhe = .ok z') (hd : ShortAnf z d) : ShortAnf z' d := by
  have sf := hf.good.toSound
  have sg := hg.good.toSound
  set m := f.adicity
  obtain ⟨n, n1, n2⟩ : ∃ n, g.adicity ≤ n ∧ ∀ x < m, (logicAbs (s.value x)).toNat < n := by
    refine ⟨g.adicity + (Finset.range m).sup (fun x => (logicAbs (s.value x)).toNat) + 1, by omega, fun x hx => ?_⟩
    have := Finset.le_sup (f := fun x : Nat => (logicAbs (s.value x)).toNat) (Finset.mem_range.2 hx)
    omega
  rw [short_iff sg n1 hz']
  have h1 := (short_iff sf (le_refl m) hz d).1 hd
  have h2 : ∀ x < m, Deg n 1 fun i => lit i.testBit (s.value x) := by
    intro x hx
    exact (Deg.digit (n2 x hx)).xor (Deg.const _)
  have h3 := h1.subst h2
  rw [Nat.mul_one] at h3
  refine h3.congr fun i _ => ?_
  rw [h]
  apply Boolf.eval_congr
  intro x hx
  rw [testBit_valB_range]
  have := sf.adic_lt hx
  simp only [m, this, decide_true, Bool.true_and]

/-- **C183.** Signed permutations of the arguments keep the greatest length of a product. -/
theorem C183_action (f : Boolf) (hf : Reach f) (s : SG.SigPerm) (hs : SG.Finite s) :
    ∃ g z z', f.applySigperm (.sigperm s) = .ok g ∧ f.zhe = .ok z ∧ g.zhe = .ok z' ∧ ∀ d, ShortAnf z' d ↔ ShortAnf z d := by
  obtain ⟨u, g, _, u1, g1, g2, _⟩ := C70_inverse f hf s hs
  obtain ⟨u', _, _, _, v1, v2, _⟩ := SG.C32_inverse s hs
  rw [u1] at v1
  cases v1
  obtain ⟨g', k1, k2, _, k4⟩ := action hf.obj hs
  rw [g1] at k1
  cases k1
  obtain ⟨f', l1, l2, _, l4⟩ := action k2 v2
  rw [g2] at l1
  cases l1
  obtain ⟨z, hz, _⟩ := zhe_any hf.canon.toSound le_rfl
  obtain ⟨z', hz', _⟩ := zhe_any k2.good.toSound le_rfl
  exact ⟨g, z, z', g1, hz, hz', fun d => ⟨action_deg k2 hf.obj l4 hz' hz, action_deg hf.obj k2 k4 hz hz'⟩⟩

theorem additive_deg {f g : Boolf} (hf : Sound f) (hg : Sound g) {n : Nat} (hfn : f.adicity ≤ n) (hgn : g.adicity ≤ n) {F : Nat → Nat}
    (hF : ∀ x y, F (x ^^^ y) = F x ^^^ F y) (h : ∀ x : Nat, f.eval x.testBit = g.eval (F x).testBit)
    {z z' d : Nat} (hz : f.zhe = .ok z) (hz' : g.zhe = .ok z') (hd : ShortAnf z' d) : ShortAnf z d := by
  rw [short_iff hf hfn hz]
  have h1 := ((short_iff hg hgn hz' d).1 hd).subst (n := n) (e := 1) (G := fun b i => (F i).testBit b)
    fun b _ => Deg.additive _ fun x y => by rw [hF, Nat.testBit_xor]
  rw [Nat.mul_one] at h1
  refine h1.congr fun i _ => ?_
  rw [h, valB_range_testBit, eval_mod hg hgn]

/-- **C183.** Walsh permutations of the truth table keep the greatest length of a product. -/
theorem C183_walsh (f : Boolf) (hf : Reach f) (w : Walsh) (hw : W.Constructed w) (n : Nat) (hn : f.adicity ≤ n) (hd : w.degree ≤ n) :
    ∃ t l g z z', f.tt (.arity n) = .ok t ∧ w.applyOnVector t.vector = .ok l ∧ newTT (.binv ⟨l⟩) = .ok g ∧ f.zhe = .ok z ∧ g.zhe = .ok z' ∧
      ∀ d, ShortAnf z' d ↔ ShortAnf z d := by
  obtain ⟨t, l, g, _, _, _, t1, l1, g1, g2, g3, g4, _⟩ := C172_spectrum f hf w hw n hn hd
  obtain ⟨F, F1, F2, F3, _⟩ := W.C34_linear w hw
  have sf := hf.canon.toSound
  have sg := g2.canon.toSound
  have e : ∀ x : Nat, f.eval x.testBit = g.eval (F x).testBit := by
    intro x
    have := g4 x (F x) (F1 x)
    rw [getItem_eq sf, getItem_eq sg, Except.ok.injEq] at this
    exact this.symm
  obtain ⟨F', hl, hr⟩ := Function.bijective_iff_has_inverse.1 F2
  have e' : ∀ y : Nat, g.eval y.testBit = f.eval (F' y).testBit := fun y => by rw [e, hr]
  have hF' : ∀ x y, F' (x ^^^ y) = F' x ^^^ F' y := by
    intro x y
    apply F2.1
    rw [hr, F3, hr, hr]
  obtain ⟨z, hz, _⟩ := zhe_any sf le_rfl
  obtain ⟨z', hz', _⟩ := zhe_any sg le_rfl
  exact ⟨t, l, g, z, z', t1, l1, g1, hz, hz', fun d => ⟨additive_deg sf sg hn g3 F3 e hz hz', additive_deg sg sf g3 hn hF' e' hz' hz⟩⟩

theorem xorSum_one {p n : Nat} (hp : p < n) : xorSum ((List.range n).map fun b => decide (b = p)) = true := by
  induction n with
  | zero => omega
  | succ n ih =>
    rw [List.range_succ, List.map_append, xorSum_append]
    by_cases h : p = n
    · subst h
      rw [xorSum_false _ (fun k hk => decide_eq_false (by have := List.mem_range.1 hk; omega))]
      simp [xorSum]
    · rw [ih (by omega)]
      simp [xorSum, Ne.symm h]

theorem one_digit {n k : Nat} (hk : k < 2 ^ n) (h0 : k ≠ 0) (h1 : ones n k ≤ 1) : ∃ p, k = 2 ^ p := by
  obtain ⟨p, hp⟩ : ∃ p, k.testBit p = true := Nat.exists_testBit_of_ne_zero h0
  have hpn : p < n := by
    by_contra hc
    rw [testBit_of_lt hk (by omega)] at hp
    cases hp
  refine ⟨p, Nat.eq_of_testBit_eq fun q => ?_⟩
  by_cases hq : q = p
  · subst hq; rw [hp, Nat.testBit_two_pow_self]
  · rw [Nat.testBit_two_pow_of_ne (Ne.symm hq)]
    by_contra hc
    rw [Bool.not_eq_false] at hc
    have hqn : q < n := by
      by_contra hc'
      rw [testBit_of_lt hk (by omega)] at hc
      cases hc
    unfold ones at h1
    rw [List.countP_eq_length_filter, filter_range_card] at h1
    have : ({p, q} : Finset Nat) ⊆ (Finset.range n).filter fun b => k.testBit b = true := by
      intro x hx
      rw [Finset.mem_insert, Finset.mem_singleton] at hx
      rw [Finset.mem_filter, Finset.mem_range]
      rcases hx with rfl | rfl
      · exact ⟨hpn, hp⟩
      · exact ⟨hqn, hc⟩
    have h2 := Finset.card_le_card this
    rw [Finset.card_pair (Ne.symm hq)] at h2
    omega

/-- **C183.** A function is linear iff its algebraic normal form has no products of two or more atoms. -/
theorem C183_linear (f : Boolf) (hf : Obj f) : ∃ z b, f.zhe = .ok z ∧ f.isLinear = .ok b ∧ (b = true ↔ ShortAnf z 1) := by
  have hs := hf.good.toSound
  obtain ⟨z, hz, hlt, hbit⟩ := zhe_any hs le_rfl
  obtain ⟨b, b1, b2, b3⟩ := linear_iff hs
  refine ⟨z, b, hz, b1, fun hb => ?_, fun hd => ?_⟩
  · obtain ⟨A, c, _, hA, hk⟩ := b2.1 hb
    rw [short_iff hs le_rfl hz]
    exact ((Deg.parity A fun p hp => hs.adic_lt (hA p hp)).xor (Deg.const c)).congr fun i _ => hk i
  · -- the exponents are 0 and powers of two
    set n := f.adicity
    refine b3 ((List.range n).filter fun p => z.testBit (2 ^ p)) (z.testBit 0) (List.nodup_range.filter _) fun key => ?_
    have hi := Nat.mod_lt key (Nat.two_pow_pos n)
    rw [← eval_mod hs le_rfl, Deg.expand (n := n) (fun i => f.eval i.testBit) hi]
    have hw : ∀ k < 2 ^ n, subXor n (fun i => f.eval i.testBit) k = linAnf n (valB ((List.range n).map fun p => z.testBit (2 ^ p))) (z.testBit 0) k := by
      intro k hk
      rw [← hbit k hk]
      unfold linAnf
      by_cases h0 : k = 0
      · subst h0
        rw [xorSum_false _ fun b _ => by rw [decide_eq_false (Nat.ne_of_lt (Nat.two_pow_pos b)), Bool.and_false]]
        simp
      · rw [decide_eq_false h0, Bool.and_false, Bool.false_xor]
        by_cases hp : ∃ p, k = 2 ^ p
        · obtain ⟨p, rfl⟩ := hp
          have hpn : p < n := (Nat.pow_lt_pow_iff_right (by omega)).1 hk
          rw [xorSum_congr (w := fun b => z.testBit (2 ^ p) && decide (b = p)) (fun b hb => ?_), xorSum_and_left, xorSum_one hpn, Bool.and_true]
          rw [testBit_valB_range]
          by_cases hbp : b = p
          · subst hbp; simp [hpn]
          · have : (2 : Nat) ^ p ≠ 2 ^ b := fun h => hbp (Nat.pow_right_injective (le_refl 2) h).symm
            simp [hbp, this]
        · rw [xorSum_false _ fun b _ => by rw [decide_eq_false (fun h => hp ⟨b, h⟩), Bool.and_false]]
          by_contra hc
          rw [Bool.not_eq_false] at hc
          exact hp (one_digit hk h0 (hd k hc n))
    rw [xorSum_congr (w := fun a => linAnf n (valB ((List.range n).map fun p => z.testBit (2 ^ p))) (z.testBit 0) a && sub a (key % 2 ^ n))
      fun a ha => by rw [hw a (List.mem_range.1 ha)]]
    have := subXor_linAnf n (valB ((List.range n).map fun p => z.testBit (2 ^ p))) (z.testBit 0) (key % 2 ^ n)
    unfold subXor at this
    rw [this, linF_count]
    congr 1
    unfold parity
    rw [List.countP_filter]
    congr 2
    congr 1
    apply List.countP_congr
    intro b hb
    rw [testBit_valB_range, Nat.testBit_mod_two_pow]
    simp [List.mem_range.1 hb, and_comm]

/-! ## Examples -/

/-- The conjunction has the Zhegalkin index 8 = 2^3, and 3 has two digits. -/
example : ∃ f, newTT (.list [0, 0, 0, 1]) = .ok f ∧ Reach f ∧ f.zhe = .ok 8 ∧ ShortAnf 8 2 ∧ ¬ ShortAnf 8 1 := by
  have h : newTT (.list [0, 0, 0, 1]) = .ok { atomvals := [0, 1], root := ⟨[false, false, false, true]⟩, adicity := 2, valency := 2 } := by decide
  refine ⟨_, h, reach_newTT h, by decide, fun k hk n => ?_, fun hs => absurd (hs 3 (by decide) 2) (by decide)⟩
  have e : (2 : Nat) ^ 3 = 8 := rfl
  rw [← e, Nat.testBit_two_pow, decide_eq_true_eq] at hk
  subst hk
  exact le_trans (ones_bound (n := 2) (by decide) n) (by decide)

/-- The exclusive or has the Zhegalkin index 6 = 2^1 + 2^2. -/
example : ∃ f, newTT (.list [0, 1, 1, 0]) = .ok f ∧ Reach f ∧ f.zhe = .ok 6 ∧ ShortAnf 6 1 ∧ f.isLinear = .ok true := by
  have h : newTT (.list [0, 1, 1, 0]) = .ok { atomvals := [0, 1], root := ⟨[false, true, true, false]⟩, adicity := 2, valency := 2 } := by decide
  have hz : Boolf.zhe { atomvals := [0, 1], root := ⟨[false, true, true, false]⟩, adicity := 2, valency := 2 } = .ok 6 := by decide
  have hl : Boolf.isLinear { atomvals := [0, 1], root := ⟨[false, true, true, false]⟩, adicity := 2, valency := 2 } = .ok true := by decide
  obtain ⟨z, b, z1, b1, hzb⟩ := C183_linear _ (reach_newTT h).obj
  rw [hz] at z1
  rw [hl] at b1
  cases z1
  cases b1
  exact ⟨_, h, reach_newTT h, hz, hzb.1 rfl, hl⟩

end Verif.BF
