import Verif.Boolf.Props1
import Verif.Boolf.Twin

/-!
# Property C50: twins and algebraic normal forms
-/

namespace Verif.BF
open Verif.Py Verif.BV Verif.P Verif.W
open Verif.A hiding Mat

/-- the parity of the number of `i < m` with the property `p` -/
def OddMany (m : Nat) (p : Nat → Prop) [DecidablePred p] : Prop := Odd ((Finset.range m).filter p).card

instance (m : Nat) (p : Nat → Prop) [DecidablePred p] : Decidable (OddMany m p) := inferInstanceAs (Decidable (Odd _))

theorem xorSum_range (m : Nat) (p : Nat → Bool) : xorSum ((List.range m).map p) = decide (OddMany m fun i => p i = true) := by
  rw [Bool.eq_iff_iff, decide_eq_true_eq]
  unfold OddMany
  induction m with
  | zero => simp [xorSum]
  | succ m ih =>
    rw [List.range_succ, List.map_append, xorSum_append, Finset.range_add_one, Finset.filter_insert]
    simp only [List.map_cons, List.map_nil, xorSum, Bool.xor_false]
    by_cases hp : p m = true
    · rw [if_pos hp, Finset.card_insert_of_notMem (by simp), hp, Bool.xor_true, Nat.odd_add_one, ← ih, Bool.not_eq_true', Bool.not_eq_true]
    · rw [if_neg hp, ← ih]
      simp only [Bool.not_eq_true] at hp
      rw [hp, Bool.xor_false]

theorem sub_iff_and (i j : Nat) : sub i j = true ↔ i &&& j = i := by
  rw [sub_iff]
  constructor
  · intro h
    apply Nat.eq_of_testBit_eq
    intro k
    rw [Nat.testBit_and]
    cases hk : i.testBit k with
    | false => rfl
    | true => rw [h k hk]; rfl
  · intro h k hk
    rw [← h, Nat.testBit_and] at hk
    exact (Bool.and_eq_true_iff.1 hk).2

theorem oddMany_congr {m : Nat} {p q : Nat → Prop} [DecidablePred p] [DecidablePred q] (h : ∀ i < m, p i ↔ q i) : OddMany m p ↔ OddMany m q := by
  unfold OddMany
  rw [Finset.filter_congr (fun i hi => h i (Finset.mem_range.1 hi))]

theorem subXor_odd (n : Nat) (v : Nat → Bool) (j : Nat) :
    subXor n v j = decide (OddMany (2 ^ n) fun i => v i = true ∧ i &&& j = i) := by
  unfold subXor
  rw [xorSum_range]
  apply decide_eq_decide.2
  apply oddMany_congr
  intro i _
  rw [Bool.and_eq_true, sub_iff_and]

theorem xorSum_false {α : Type} (l : List α) {p : α → Bool} (h : ∀ i ∈ l, p i = false) : xorSum (l.map p) = false := by
  induction l with
  | nil => rfl
  | cons a l ih => rw [List.map_cons, xorSum, h a (by simp), ih (fun i hi => h i (by simp [hi]))]; rfl

theorem subXor_extend {m n : Nat} (hmn : m ≤ n) {v : Nat → Bool} (hv : ∀ i, 2 ^ m ≤ i → v i = false) (j : Nat) : subXor n v j = subXor m v j := by
  unfold subXor
  obtain ⟨d, hd⟩ : ∃ d, 2 ^ n = 2 ^ m + d := ⟨2 ^ n - 2 ^ m, by have := Nat.pow_le_pow_right (n := 2) (by omega) hmn; omega⟩
  rw [hd, List.range_add, List.map_append, xorSum_append, List.map_map, xorSum_false (List.range d), Bool.xor_false]
  intro i _
  simp only [Function.comp_apply]
  rw [hv _ (by omega), Bool.false_and]

theorem subXor_mod (n : Nat) (v : Nat → Bool) (j : Nat) : subXor n v (j % 2 ^ n) = subXor n v j := by
  unfold subXor
  congr 1
  apply List.map_congr_left
  intro i hi
  rw [← sub_low (List.mem_range.1 hi)]

/-! ### Functions given by tables without atoms -/

theorem valB_range_testBit (n key : Nat) : valB ((List.range n).map key.testBit) = key % 2 ^ n := by
  apply Nat.eq_of_testBit_eq
  intro i
  rw [testBit_valB_range, Nat.testBit_mod_two_pow]

theorem valB_range_lt (n : Nat) (a : Nat → Bool) : valB ((List.range n).map a) < 2 ^ n := by simpa using valB_map_lt (List.range n) a

/-- the function of a table of length `2 ^ n` -/
theorem newTT_table {v : List Bool} {n : Nat} (hv : v.length = 2 ^ n) :
    ∃ g, newTT (.list (v.map fun b => (b.toNat : Int))) = .ok g ∧ Canon g ∧ g.adicity ≤ n ∧
      ∀ a, g.eval a = v.getD (valB ((List.range n).map a)) false := by
  obtain ⟨g, g1, g2, g3⟩ := ttDeflated_none (b := ⟨v⟩) hv
  refine ⟨g, ?_, g2, g2.adicity_le (e := fun l => v.getD (valB l) false) g3, g3⟩
  unfold newTT
  simp only [ttBinv, mk_list, bind, Except.bind, Bool.false_eq_true, if_false]
  exact g1

theorem newTT_fun (n : Nat) (v : Nat → Bool) :
    ∃ g, newTT (.list (((List.range (2 ^ n)).map v).map fun b => (b.toNat : Int))) = .ok g ∧ Canon g ∧ g.adicity ≤ n ∧
      (∀ a, g.eval a = v (valB ((List.range n).map a))) ∧ ∀ key : Nat, g.eval key.testBit = v (key % 2 ^ n) := by
  obtain ⟨g, g1, g2, g3, g4⟩ := newTT_table (v := (List.range (2 ^ n)).map v) (n := n) (by simp)
  have e : ∀ a, g.eval a = v (valB ((List.range n).map a)) := by
    intro a
    rw [g4, List.getD_eq_getElem?_getD, List.getElem?_map, List.getElem?_range (valB_range_lt n a)]; rfl
  refine ⟨g, g1, g2, g3, e, fun key => ?_⟩
  rw [e, valB_range_testBit]

theorem newTT_int_fun {t n : Nat} (ht : t < 2 ^ 2 ^ n) :
    ∃ g, newTT (.int t) none (some (n : Int)) = .ok g ∧ Canon g ∧ g.adicity ≤ n ∧
      (∀ a, g.eval a = t.testBit (valB ((List.range n).map a))) ∧ ∀ key : Nat, g.eval key.testBit = t.testBit (key % 2 ^ n) := by
  obtain ⟨g, g1, g2, g3⟩ := ttDeflated_none (b := ⟨(List.range (2 ^ n)).map t.testBit⟩) (n := n) (by simp [Binv.length])
  have e : ∀ a, g.eval a = t.testBit (valB ((List.range n).map a)) := by
    intro a
    rw [g3, List.getD_eq_getElem?_getD, List.getElem?_map, List.getElem?_range (valB_range_lt n a)]; rfl
  refine ⟨g, ?_, g2, g2.adicity_le (e := fun l => t.testBit (valB l)) e, e, fun key => by rw [e, valB_range_testBit]⟩
  unfold newTT
  simp only [ttBinv]
  rw [if_neg (by omega), Int.toNat_natCast, shl_eq, mk_intval_bits (Nat.two_pow_pos n) ht]
  simp only [bind, Except.bind, Bool.false_eq_true, if_false]
  exact g1

theorem eval_mod {f : Boolf} (h : Sound f) {n : Nat} (hn : f.adicity ≤ n) (key : Nat) : f.eval (key % 2 ^ n).testBit = f.eval key.testBit := by
  apply Boolf.eval_congr
  intro x hx
  rw [Nat.testBit_mod_two_pow, decide_eq_true ((h.adic n).1 hn x hx), Bool.true_and]

theorem ext_below {f g : Boolf} (hf : Canon f) (hg : Canon g) {n : Nat} (hfn : f.adicity ≤ n) (hgn : g.adicity ≤ n)
    (h : ∀ j < 2 ^ n, f.eval j.testBit = g.eval j.testBit) : f = g := by
  apply hf.ext_key hg
  intro key
  rw [getItem_eq hf.toSound, getItem_eq hg.toSound, ← eval_mod hf.toSound hfn, ← eval_mod hg.toSound hgn, h _ (Nat.mod_lt _ (Nat.two_pow_pos _))]

theorem twin_spec {f : Boolf} (h : Sound f) {n : Nat} (hn : f.adicity ≤ n) :
    ∃ g, f.twin (some (n : Int)) = .ok g ∧ Canon g ∧ Reach g ∧ g.adicity ≤ n ∧ ∀ j < 2 ^ n, g.eval j.testBit = subXor n (fun i => f.eval i.testBit) j := by
  obtain ⟨g, g1, g2, g3, _, g5⟩ := newTT_fun n (subXor n fun i => f.eval i.testBit)
  refine ⟨g, ?_, g2, reach_newTT g1, g3, fun j hj => by rw [g5, Nat.mod_eq_of_lt hj]⟩
  unfold Boolf.twin
  simp only
  rw [if_pos (by omega), tt_arity_eq h hn]
  simp only [bind, Except.bind, Int.toNat_natCast]
  rw [vectorToTwin_eq (by simp)]
  simp only
  rw [← g1]
  congr 3
  apply List.map_congr_left
  intro j _
  apply subXor_congr
  intro i hi
  rw [List.getD_eq_getElem?_getD, List.getElem?_map, List.getElem?_range hi]; rfl

/-- **C50.** The twin for an arity `n` from the adicity on: the value for a key `j` below `2 ** n` is the parity of the number of true places `i` whose
binary digits are contained in those of `j`.  The twin of the twin is the function.  Smaller arities raise an exception. -/
theorem C50_twin (f : Boolf) (hf : Reach f) :
    (∀ n : Nat, f.adicity ≤ n → ∃ g, f.twin (some (n : Int)) = .ok g ∧ Reach g ∧ g.adicity ≤ n ∧
      (∀ j < 2 ^ n, g.getItem j = .ok (decide (OddMany (2 ^ n) fun i => f.getItem i = .ok true ∧ i &&& j = i))) ∧
      g.twin (some (n : Int)) = .ok f) ∧
    (∀ n : Int, n < f.adicity → f.twin (some n) = .error .assertion) ∧
    f.twin none = f.twin (some (f.adicity : Int)) := by
  have h := hf.canon
  refine ⟨fun n hn => ?_, fun n hn => ?_, ?_⟩
  · obtain ⟨g, g1, g2, g3, g4, g5⟩ := twin_spec h.toSound hn
    obtain ⟨k, k1, k2, k3, k4, k5⟩ := twin_spec g2.toSound g4
    refine ⟨g, g1, g3, g4, fun j hj => ?_, ?_⟩
    · rw [getItem_eq g2.toSound, g5 j hj, subXor_odd]
      refine congrArg Except.ok (decide_eq_decide.2 (oddMany_congr fun i _ => ?_))
      rw [getItem_eq h.toSound, Except.ok.injEq]
    · rw [k1]
      refine congrArg Except.ok (ext_below k2 h k4 hn fun j hj => ?_)
      rw [k5 j hj, subXor_congr g5, subXor_subXor n _ hj]
  · unfold Boolf.twin
    simp only
    rw [if_neg (by omega)]
  · unfold Boolf.twin
    simp only [ge_iff_le, le_refl, if_true, Int.toNat_natCast]

/-- **C50.** The twin is linear. -/
theorem C50_linear (f g : Boolf) (hf : Reach f) (hg : Reach g) (n : Nat) (hfn : f.adicity ≤ n) (hgn : g.adicity ≤ n) :
    ∃ x f' g' x', f.xor g = .ok x ∧ f.twin (some (n : Int)) = .ok f' ∧ g.twin (some (n : Int)) = .ok g' ∧
      x.twin (some (n : Int)) = .ok x' ∧ f'.xor g' = .ok x' := by
  have sf := hf.canon.toSound
  have sg := hg.canon.toSound
  have xor_adic : ∀ {f g x : Boolf}, Sound f → Sound g → Canon x → f.adicity ≤ n → g.adicity ≤ n → (∀ a, x.eval a = (f.eval a ^^ g.eval a)) →
      x.adicity ≤ n := by
    intro f g x hf hg hx hfn hgn he
    rw [hx.adic]
    intro y hy
    rw [hx.mem_iff] at hy
    obtain ⟨a, ha⟩ := hy
    by_contra hc
    apply ha
    have e : ∀ h : Boolf, Sound h → h.adicity ≤ n → h.eval (upd a y false) = h.eval (upd a y true) := by
      intro h hh hn
      apply Boolf.eval_congr
      intro z hz
      have := (hh.adic n).1 hn z hz
      unfold upd
      rw [if_neg (by omega), if_neg (by omega)]
    rw [he, he, e f hf hfn, e g hg hgn]
  obtain ⟨x, x1, x2, x3⟩ := xor_spec sf sg
  have hxn := xor_adic sf sg x2 hfn hgn x3
  obtain ⟨f', f1, f2, f3, f4, f5⟩ := twin_spec sf hfn
  obtain ⟨g', g1, g2, g3, g4, g5⟩ := twin_spec sg hgn
  obtain ⟨x', y1, y2, y3, y4, y5⟩ := twin_spec x2.toSound hxn
  obtain ⟨y, z1, z2, z3⟩ := xor_spec f2.toSound g2.toSound
  have hyn := xor_adic f2.toSound g2.toSound z2 f4 g4 z3
  refine ⟨x, f', g', x', x1, f1, g1, y1, ?_⟩
  rw [z1]
  refine congrArg Except.ok (ext_below z2 y2 hyn y4 fun j hj => ?_)
  rw [z3, f5 j hj, g5 j hj, y5 j hj, ← subXor_xor]
  exact (subXor_congr (fun i _ => x3 _) j).symm

/-! ### Zhegalkin indices -/

theorem testBit_of_lt {z m i : Nat} (hz : z < 2 ^ m) (hi : m ≤ i) : z.testBit i = false :=
  Nat.testBit_lt_two_pow (lt_of_lt_of_le hz (Nat.pow_le_pow_right (by omega) hi))

theorem zhe_spec {f : Boolf} (h : Sound f) :
    ∃ z, f.zhe = .ok z ∧ z < 2 ^ 2 ^ f.adicity ∧ ∀ j < 2 ^ f.adicity, z.testBit j = subXor f.adicity (fun i => f.eval i.testBit) j := by
  refine ⟨vectorToInt ((List.range (2 ^ f.adicity)).map (subXor f.adicity fun i => f.eval i.testBit)), ?_, ?_, fun j hj => ?_⟩
  · unfold Boolf.zhe
    rw [tt_noArg_eq, tt_arity_eq h le_rfl]
    simp only [bind, Except.bind, pure, Except.pure]
    rw [vectorToTwin_eq (by simp)]
    simp only
    congr 3
    funext j
    apply subXor_congr
    intro i hi
    rw [List.getD_eq_getElem?_getD, List.getElem?_map, List.getElem?_range hi]; rfl
  · have := (C19_vector_to_int ((List.range (2 ^ f.adicity)).map (subXor f.adicity fun i => f.eval i.testBit))).2
    simpa using this
  · rw [(C19_vector_to_int _).1, List.getD_eq_getElem?_getD, List.getElem?_map, List.getElem?_range hj]; rfl

theorem intvalToArity_spec (z : Nat) : ∃ n, intvalToArity z = .ok n ∧ z < 2 ^ 2 ^ n ∧ ∀ m, z < 2 ^ 2 ^ m → n ≤ m := by
  unfold intvalToArity
  rw [if_pos (by omega)]
  by_cases h : ((z : Int) = 0 ∨ (z : Int) = 1)
  · rw [if_pos h]
    exact ⟨0, rfl, by rw [Nat.pow_zero, Nat.pow_one]; omega, fun m _ => by omega⟩
  · rw [if_neg h]
    have hz : 2 ≤ z := by omega
    have hL : 1 ≤ Nat.log2 z := by rw [Nat.le_log2 (by omega)]; omega
    have e1 : logFloor (z : Int) = .ok (Nat.log2 z) := by
      unfold logFloor; rw [if_pos (by omega), Int.toNat_natCast]
    have e2 : logFloor ((Nat.log2 z : Nat) : Int) = .ok (Nat.log2 (Nat.log2 z)) := by
      unfold logFloor; rw [if_pos (by omega), Int.toNat_natCast]
    simp only [e1, e2, bind, Except.bind, pure, Except.pure]
    refine ⟨_, rfl, ?_, fun m hm => ?_⟩
    · have h1 : Nat.log2 z < 2 ^ (Nat.log2 (Nat.log2 z) + 1) := Nat.lt_log2_self
      have h2 : z < 2 ^ (Nat.log2 z + 1) := Nat.lt_log2_self
      exact lt_of_lt_of_le h2 (Nat.pow_le_pow_right (by omega) h1)
    · have h1 : Nat.log2 z < 2 ^ m := by rw [Nat.log2_lt (by omega)]; exact hm
      have h2 : Nat.log2 (Nat.log2 z) < m := by rw [Nat.log2_lt (by omega)]; exact h1
      omega

theorem newZhe_spec (z : Nat) : ∃ f n, newZhe z = .ok f ∧ Canon f ∧ f.adicity ≤ n ∧ z < 2 ^ 2 ^ n ∧
    ∀ j < 2 ^ n, f.eval j.testBit = subXor n z.testBit j := by
  obtain ⟨n, n1, n2, _⟩ := intvalToArity_spec z
  obtain ⟨t, t1, t2, t3⟩ := twinInt_eq n2
  obtain ⟨f, f1, f2, f3, _, f5⟩ := newTT_int_fun t2
  refine ⟨f, n, ?_, f2, f3, n2, fun j hj => ?_⟩
  · unfold newZhe
    simp only [n1, t1, bind, Except.bind]
    exact f1
  · rw [f5, Nat.mod_eq_of_lt hj, t3 j hj]

/-- **C50.** The Zhegalkin index gives the algebraic normal form: the value for a key is the parity of the number of those `k` in the binary exponents of
`zhe` whose digits are contained in those of the key (each such `k` stands for a product of atoms).  The function can be rebuilt from it. -/
theorem C50_zhe (f : Boolf) (hf : Reach f) :
    ∃ z : Nat, f.zhe = .ok z ∧ z < 2 ^ 2 ^ f.adicity ∧
      (∀ key : Nat, f.getItem key = .ok (decide (OddMany (2 ^ f.adicity) fun k => z.testBit k = true ∧ k &&& key = k))) ∧
      new { zhe := some (z : Int) } = .ok f := by
  have h := hf.canon
  obtain ⟨z, z1, z2, z3⟩ := zhe_spec h.toSound
  have anf : ∀ key : Nat, f.eval key.testBit = subXor f.adicity z.testBit key := by
    intro key
    rw [← subXor_mod, ← eval_mod h.toSound le_rfl]
    have hlt := Nat.mod_lt key (Nat.two_pow_pos f.adicity)
    rw [subXor_congr z3, subXor_subXor _ _ hlt]
  refine ⟨z, z1, z2, fun key => by rw [getItem_eq h.toSound, anf, subXor_odd], ?_⟩
  obtain ⟨g, n, g1, g2, g3, g4, g5⟩ := newZhe_spec z
  show newZhe z = .ok f
  rw [g1]
  refine congrArg Except.ok (ext_below g2 h (n := max n f.adicity) (le_trans g3 (le_max_left _ _)) (le_max_right _ _) fun j hj => ?_)
  rw [anf, ← eval_mod g2.toSound g3, g5 _ (Nat.mod_lt _ (Nat.two_pow_pos n)), subXor_mod]
  rcases le_total n f.adicity with hn | hn
  · exact (subXor_extend hn (fun i hi => testBit_of_lt g4 hi) j).symm
  · exact subXor_extend hn (fun i hi => testBit_of_lt z2 hi) j

/-- **C50.** Each natural number is the Zhegalkin index of exactly one function, the one built with the argument `zhe`. -/
theorem C50_zhe_index (z : Nat) : ∃ f, new { zhe := some (z : Int) } = .ok f ∧ Reach f ∧ f.zhe = .ok z ∧ ∀ g, Reach g → g.zhe = .ok z → g = f := by
  obtain ⟨f, n, f1, f2, f3, f4, f5⟩ := newZhe_spec z
  have hr : Reach f := .new { zhe := some (z : Int) } _ f1 rfl (by simp [Args.entries])
  refine ⟨f, f1, hr, ?_, fun g hg hz => ?_⟩
  · obtain ⟨y, y1, y2, y3⟩ := zhe_spec f2.toSound
    rw [y1]
    refine congrArg Except.ok ?_
    have hy : y < 2 ^ 2 ^ n := lt_of_lt_of_le y2 (Nat.pow_le_pow_right (by omega) (Nat.pow_le_pow_right (by omega) f3))
    have key : ∀ j < 2 ^ n, subXor n y.testBit j = subXor n z.testBit j := by
      intro j hj
      rw [← f5 j hj, subXor_extend f3 (fun i hi => testBit_of_lt y2 hi), ← subXor_mod, ← eval_mod f2.toSound le_rfl, subXor_congr y3,
        subXor_subXor _ _ (Nat.mod_lt _ (Nat.two_pow_pos _))]
    apply Nat.eq_of_testBit_eq
    intro i
    by_cases hi : i < 2 ^ n
    · rw [← subXor_subXor n y.testBit hi, subXor_congr key, subXor_subXor n _ hi]
    · rw [testBit_of_lt hy (by omega), testBit_of_lt f4 (by omega)]
  · obtain ⟨z', h1, _, _, h2⟩ := C50_zhe g hg
    rw [hz] at h1
    obtain rfl := Except.ok.inj h1
    rw [show new { zhe := some (z : Int) } = .ok f from f1] at h2
    exact (Except.ok.inj h2).symm

theorem C50_zhe_negative (z : Int) (hz : z < 0) : new { zhe := some z } = .error .argValue := by
  show newZhe z = _
  unfold newZhe intvalToArity
  rw [if_neg (by omega)]
  rfl

/-- **C50.** The twin of a truth table given as integer is an involution below `2 ** 2 ** arity`; larger integers raise an exception. -/
theorem C50_twin_integer (n z : Nat) :
    (z < 2 ^ 2 ^ n → ∃ t, twinInt z n = .ok t ∧ t < 2 ^ 2 ^ n ∧ twinInt t n = .ok z ∧
      ∀ j < 2 ^ n, t.testBit j = decide (OddMany (2 ^ n) fun i => z.testBit i = true ∧ i &&& j = i)) ∧
    (2 ^ 2 ^ n ≤ z → twinInt z n = .error .assertion) := by
  refine ⟨fun hz => ?_, twinInt_error⟩
  obtain ⟨t, t1, t2, t3⟩ := twinInt_eq hz
  obtain ⟨y, y1, y2, y3⟩ := twinInt_eq t2
  refine ⟨t, t1, t2, ?_, fun j hj => by rw [t3 j hj, subXor_odd]⟩
  rw [y1]
  refine congrArg Except.ok (Nat.eq_of_testBit_eq fun i => ?_)
  by_cases hi : i < 2 ^ n
  · rw [y3 i hi, subXor_congr t3, subXor_subXor n _ hi]
  · rw [testBit_of_lt y2 (by omega), testBit_of_lt hz (by omega)]

/-- **C50.** The twin of a vector is an involution on the vectors of length `2 ** arity`; other lengths raise an exception. -/
theorem C50_twin_vector (n : Nat) (v : List Bool) :
    (v.length = 2 ^ n → ∃ t, vectorToTwin v n = .ok t ∧ t.length = 2 ^ n ∧ vectorToTwin t n = .ok v ∧
      ∀ j < 2 ^ n, t[j]? = some (decide (OddMany (2 ^ n) fun i => v[i]? = some true ∧ i &&& j = i))) ∧
    (v.length ≠ 2 ^ n → vectorToTwin v n = .error .assertion) := by
  refine ⟨fun hv => ?_, vectorToTwin_error⟩
  refine ⟨_, vectorToTwin_eq hv, by simp, ?_, fun j hj => ?_⟩
  · rw [vectorToTwin_eq (by simp)]
    refine congrArg Except.ok (List.ext_getElem? fun i => ?_)
    rw [List.getElem?_map]
    by_cases hi : i < 2 ^ n
    · rw [List.getElem?_range hi, Option.map_some,
        subXor_congr (w := subXor n fun i => v.getD i false) (fun k hk => by
          rw [List.getD_eq_getElem?_getD, List.getElem?_map, List.getElem?_range hk]; rfl),
        subXor_subXor n _ hi, List.getD_eq_getElem?_getD, List.getElem?_eq_getElem (by omega)]; rfl
    · rw [List.getElem?_eq_none (by simpa using hi), List.getElem?_eq_none (by omega)]; rfl
  · rw [List.getElem?_map, List.getElem?_range hj, Option.map_some, subXor_odd]
    refine congrArg some (decide_eq_decide.2 (oddMany_congr fun i hi => ?_))
    rw [List.getD_eq_getElem?_getD, List.getElem?_eq_getElem (by omega)]
    simp

example : ∃ f : Boolf, Reach f ∧ f.adicity ≤ 4 ∧ f.zhe = .ok 1024 := by
  obtain ⟨f, f1, f2, f3, _⟩ := C50_zhe_index 1024
  refine ⟨f, f2, ?_, f3⟩
  obtain ⟨g, n, g1, g2, g3, g4, _⟩ := newZhe_spec 1024
  obtain ⟨m, m1, m2, m3⟩ := intvalToArity_spec 1024
  have h4 := m3 4 (by decide)
  obtain ⟨t, t1, t2, t3⟩ := twinInt_eq m2
  obtain ⟨k, k1, _, k3, _⟩ := newTT_int_fun t2
  have : newZhe (1024 : Nat) = .ok k := by
    unfold newZhe
    simp only [m1, t1, bind, Except.bind]
    exact k1
  have e : f = k := Except.ok.inj ((show newZhe (1024 : Nat) = .ok f from f1).symm.trans this)
  rw [e]; omega

example : ([true, false, false, true] : List Bool).length = 2 ^ 2 ∧ (9 : Nat) < 2 ^ 2 ^ 2 := by decide

end Verif.BF
