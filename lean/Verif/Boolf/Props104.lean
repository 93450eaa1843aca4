import Verif.Boolf.Props9
import Verif.Boolf.Props14
import Verif.Boolf.Props102

/-! # C182: the prefect is a projection to the linear functions -/

namespace Verif.BF
open Verif.Py Verif.BV Verif.P Verif.W
open Verif.A hiding Mat

/-- exponents of the Zhegalkin index of the linear function `w`, complemented iff `p` -/
def linAnf (n w : Nat) (p : Bool) (k : Nat) : Bool := (p && decide (k = 0)) ^^ xorSum ((List.range n).map fun b => w.testBit b && decide (k = 2 ^ b))

theorem xorSum_delta {n s : Nat} (hs : s < 2 ^ n) (q : Nat → Bool) : xorSum ((List.range (2 ^ n)).map fun k => decide (k = s) && q k) = q s := by
  rw [← xorSum_congr (w := fun k => decide (k = s) && q k) (u := fun k => q s && decide (k = s)) (fun k _ => ?_), xorSum_and_left]
  · have h3 : ∀ m, s < m → xorSum ((List.range m).map fun k => decide (k = s)) = true := by
      intro m hm
      induction m with
      | zero => omega
      | succ m ih =>
        rw [List.range_succ, List.map_append, xorSum_append]
        by_cases hsm : s = m
        · subst hsm
          rw [xorSum_false _ (fun k hk => decide_eq_false (by have := List.mem_range.1 hk; omega))]
          simp [xorSum]
        · rw [ih (by omega)]
          simp [xorSum, Ne.symm hsm]
    rw [h3 _ hs, Bool.and_true]
  · by_cases h : k = s
    · subst h; simp
    · simp [h]

theorem xorSum_linAnf (n w : Nat) (p : Bool) (q : Nat → Bool) :
    xorSum ((List.range (2 ^ n)).map fun k => linAnf n w p k && q k) = ((p && q 0) ^^ xorSum ((List.range n).map fun b => w.testBit b && q (2 ^ b))) := by
  have key : ∀ L : List Nat, (∀ b ∈ L, b < n) →
      xorSum ((List.range (2 ^ n)).map fun k => xorSum (L.map fun b => w.testBit b && decide (k = 2 ^ b)) && q k) = xorSum (L.map fun b => w.testBit b && q (2 ^ b)) := by
    intro L hL
    induction L with
    | nil => exact xorSum_false _ fun _ _ => rfl
    | cons b L ih =>
      have e : ∀ k, (xorSum ((b :: L).map fun b => w.testBit b && decide (k = 2 ^ b)) && q k) =
          ((w.testBit b && (decide (k = 2 ^ b) && q k)) ^^ (xorSum (L.map fun b => w.testBit b && decide (k = 2 ^ b)) && q k)) := by
        intro k
        rw [List.map_cons, xorSum]
        cases q k <;> simp
      simp only [e]
      rw [xorSum_map_xor, ih (fun b hb => hL b (by simp [hb])), xorSum_and_left,
        xorSum_delta (Nat.pow_lt_pow_right (by omega) (hL b (by simp)))]
      rfl
  have e : ∀ k, (linAnf n w p k && q k) = ((p && (decide (k = 0) && q k)) ^^ (xorSum ((List.range n).map fun b => w.testBit b && decide (k = 2 ^ b)) && q k)) := by
    intro k
    unfold linAnf
    cases q k <;> simp
  simp only [e]
  rw [xorSum_map_xor, key _ (fun b hb => List.mem_range.1 hb), xorSum_and_left, xorSum_delta (Nat.two_pow_pos n)]

theorem linF_xorSum (n w j : Nat) : linF n w j = xorSum ((List.range n).map fun b => w.testBit b && j.testBit b) := by
  unfold linF
  induction n with
  | zero => rfl
  | succ n ih =>
    rw [W.bsum, ih, List.range_succ, List.map_append, xorSum_append]
    simp [xorSum]

theorem subXor_linAnf (n w : Nat) (p : Bool) (j : Nat) : subXor n (linAnf n w p) j = (linF n w j ^^ p) := by
  unfold subXor
  rw [xorSum_linAnf n w p fun k => sub k j, linF_xorSum]
  simp only [sub_pow]
  have : sub 0 j = true := by simp [sub]
  rw [this, Bool.and_true, Bool.xor_comm]

theorem subXor_lin {n w : Nat} {p : Bool} {u : Nat → Bool} (hu : ∀ i < 2 ^ n, u i = (linF n w i ^^ p)) {j : Nat} (hj : j < 2 ^ n) :
    subXor n u j = linAnf n w p j := by
  rw [subXor_congr (w := subXor n (linAnf n w p)) (fun i hi => by rw [hu i hi, subXor_linAnf]), subXor_subXor n _ hj]

theorem xorPlaces_lin {n w : Nat} (hw : w < 2 ^ n) (p : Bool) : xorPlaces n (linAnf n w p) = w := by
  apply Nat.eq_of_testBit_eq
  intro c
  rw [testBit_xorPlaces, xorSum_linAnf n w p fun k => k.testBit c, Nat.zero_testBit, Bool.and_false, Bool.false_xor]
  rw [xorSum_congr (w := fun b => decide (b = c) && w.testBit c) (fun b _ => ?_)]
  · by_cases hc : c < n
    · rw [xorSum_range]
      cases hwc : w.testBit c
      · simp [OddMany]
      · simp only [Bool.and_true, decide_eq_true_eq]
        unfold OddMany
        rw [show (Finset.range n).filter (fun i => i = c) = {c} by ext x; simp only [Finset.mem_filter, Finset.mem_range, Finset.mem_singleton]; exact ⟨fun h => h.2, fun h => by subst h; exact ⟨hc, rfl⟩⟩]
        simp
    · rw [testBit_of_lt hw (by omega)]
      exact xorSum_false _ fun b _ => Bool.and_false _
  · by_cases h : b = c
    · subst h; simp
    · rw [Nat.testBit_two_pow_of_ne h]; simp [h]

theorem evenPlaces_lin (n w : Nat) (p : Bool) : evenPlaces n (linAnf n w p) = p := by
  unfold evenPlaces
  rw [xorSum_linAnf n w p fun k => decide (intToWeight k % 2 = 0)]
  rw [xorSum_false _ (fun b hb => ?_)]
  · have : intToWeight 0 = 0 := by decide
    simp [this]
  · have hb := List.mem_range.1 hb
    have : intToWeight (2 ^ b) = 1 := by
      rw [intToWeight_card (n := b + 1) (Nat.pow_lt_pow_right (by omega) (by omega))]
      rw [show (Finset.range (b + 1)).filter (fun i : Nat => (2 ^ b : Nat).testBit i = true) = {b} by
        ext x
        simp only [Finset.mem_filter, Finset.mem_range, Finset.mem_singleton]
        refine ⟨fun h => ?_, fun h => by subst h; exact ⟨by omega, Nat.testBit_two_pow_self⟩⟩
        by_contra hc
        rw [Nat.testBit_two_pow_of_ne (Ne.symm hc)] at h
        exact absurd h.2 (by decide)]
      rfl
    simp [this]

/-- the sums over the places do not depend on the arity -/
theorem xorSum_places_extend {m n z : Nat} (hmn : m ≤ n) (hz : z < 2 ^ 2 ^ m) (q : Nat → Bool) :
    xorSum ((List.range (2 ^ n)).map fun k => z.testBit k && q k) = xorSum ((List.range (2 ^ m)).map fun k => z.testBit k && q k) := by
  obtain ⟨d, hd⟩ : ∃ d, 2 ^ n = 2 ^ m + d := ⟨2 ^ n - 2 ^ m, by have := Nat.pow_le_pow_right (n := 2) (by omega) hmn; omega⟩
  rw [hd, List.range_add, List.map_append, xorSum_append, List.map_map, xorSum_false (List.range d), Bool.xor_false]
  intro i _
  simp only [Function.comp_apply]
  rw [testBit_of_lt hz (by omega), Bool.false_and]

/-- **C182.** The prefect of a Zhegalkin index does not depend on the arity. -/
theorem C182_arity (z m n : Nat) (hmn : m ≤ n) (hz : z < 2 ^ 2 ^ m) : zheToPrefect z n = zheToPrefect z m := by
  rw [zheToPrefect_eq hz, zheToPrefect_eq (lt_of_lt_of_le hz (Nat.pow_le_pow_right (by omega) (Nat.pow_le_pow_right (by omega) hmn)))]
  congr 2
  · apply Nat.eq_of_testBit_eq
    intro b
    rw [testBit_xorPlaces, testBit_xorPlaces, xorSum_places_extend hmn hz]
  · unfold evenPlaces
    rw [xorSum_places_extend hmn hz]

theorem prefect_any {f : Boolf} (hf : Obj f) {n : Nat} (hn : f.adicity ≤ n) :
    f.prefectWalshAndOddness = .ok (xorPlaces n (subXor n fun i => f.eval i.testBit), (evenPlaces n (subXor n fun i => f.eval i.testBit)).toNat) := by
  obtain ⟨z, w, p, _, _, z1, z2, z3, _⟩ := C75_prefect f hf
  obtain ⟨z', y1, y2, y3⟩ := zhe_any hf.good.toSound hn
  obtain ⟨z'', x1, x2, _⟩ := zhe_spec hf.good.toSound
  rw [z1] at y1 x1
  cases y1
  cases x1
  rw [z3, ← z2, ← C182_arity z _ n hn x2, zheToPrefect_eq y2, xorPlaces_congr y3, evenPlaces_congr y3]

theorem xorPlaces_add (n : Nat) (u v : Nat → Bool) : xorPlaces n (fun k => u k ^^ v k) = xorPlaces n u ^^^ xorPlaces n v := by
  apply Nat.eq_of_testBit_eq
  intro b
  rw [Nat.testBit_xor, testBit_xorPlaces, testBit_xorPlaces, testBit_xorPlaces, ← xorSum_map_xor]
  congr 2
  funext k
  cases k.testBit b <;> simp

theorem evenPlaces_add (n : Nat) (u v : Nat → Bool) : evenPlaces n (fun k => u k ^^ v k) = (evenPlaces n u ^^ evenPlaces n v) := by
  unfold evenPlaces
  rw [← xorSum_map_xor]
  congr 2
  funext k
  cases decide (intToWeight k % 2 = 0) <;> simp

/-- **C182.** Prefect and consul of an exclusive or. -/
theorem C182_xor (f g : Boolf) (hf : Obj f) (hg : Obj g) : ∃ x w p w' p',
    f.xor g = .ok x ∧ f.prefectWalshAndOddness = .ok (w, p) ∧ g.prefectWalshAndOddness = .ok (w', p') ∧
      x.prefectWalshAndOddness = .ok (w ^^^ w', (p + p') % 2) ∧
      ∀ n, f.adicity ≤ n → g.adicity ≤ n → ∃ c c', f.consul (.arity n) = .ok c ∧ g.consul (.arity n) = .ok c' ∧ x.consul (.arity n) = .ok (c ^^^ c') := by
  have sf := hf.good.toSound
  have sg := hg.good.toSound
  obtain ⟨x, x1, x2, x3⟩ := xor_spec sf sg
  have hA : ∀ n, f.adicity ≤ n → g.adicity ≤ n → x.adicity ≤ n := by
    intro n hfn hgn
    apply adicity_le x2
    intro a b hab
    rw [x3, x3, Boolf.eval_congr fun y hy => hab y ((sf.adic n).1 hfn y hy), Boolf.eval_congr fun y hy => hab y ((sg.adic n).1 hgn y hy)]
  have h1 := le_max_left f.adicity g.adicity
  have h2 := le_max_right f.adicity g.adicity
  set m := max f.adicity g.adicity
  refine ⟨x, _, _, _, _, x1, prefect_any hf h1, prefect_any hg h2, ?_, fun n hfn hgn => ⟨_, _, consul_eq sf hfn, consul_eq sg hgn, ?_⟩⟩
  · rw [prefect_any (Reach.obj x2.reach) (hA m h1 h2)]
    have e : (subXor m fun i => x.eval i.testBit) = fun j => (subXor m (fun i => f.eval i.testBit) j ^^ subXor m (fun i => g.eval i.testBit) j) := by
      funext j
      rw [← subXor_xor]
      exact subXor_congr (fun i _ => x3 _) j
    rw [e, xorPlaces_add, evenPlaces_add]
    cases evenPlaces m (subXor m fun i => f.eval i.testBit) <;> cases evenPlaces m (subXor m fun i => g.eval i.testBit) <;> rfl
  · rw [consul_eq x2.toSound (hA n hfn hgn), ← xorPlaces_add]
    simp only [x3]

/-- **C182.** The consul of the twin is the Walsh index of the prefect. -/
theorem C182_twin (f : Boolf) (hf : Obj f) (n : Nat) (hn : f.adicity ≤ n) : ∃ g w p,
    f.twin (some (n : Int)) = .ok g ∧ f.prefectWalshAndOddness = .ok (w, p) ∧ g.consul (.arity n) = .ok w := by
  obtain ⟨g, g1, g2, _, g4, g5⟩ := twin_spec hf.good.toSound hn
  exact ⟨g, _, _, g1, prefect_any hf hn, by rw [consul_eq g2.toSound g4, xorPlaces_congr g5]⟩

theorem linF_less {m n w i : Nat} (hmn : m ≤ n) (hi : i < 2 ^ m) : linF n w i = linF m w i := by
  induction n, hmn using Nat.le_induction with
  | base => rfl
  | succ n hn ih => rw [linF_low (lt_of_lt_of_le hi (Nat.pow_le_pow_right (by omega) hn)), ih]

theorem parity_lin {A : List Nat} (hA : A.Nodup) {n : Nat} (hn : ∀ b ∈ A, b < n) (key : Nat) :
    parity A key = linF n (valB ((List.range n).map fun b => decide (b ∈ A))) key := by
  rw [linF_count]
  unfold parity
  have hp : ((List.range n).filter fun b => decide (b ∈ A)).Perm A := by
    rw [List.perm_ext_iff_of_nodup (List.nodup_range.filter _) hA]
    intro b
    simp only [List.mem_filter, List.mem_range, decide_eq_true_eq]
    exact ⟨fun h => h.2, fun h => ⟨hn b h, h⟩⟩
  rw [← hp.countP_eq, List.countP_filter]
  congr 2
  congr 1
  apply List.countP_congr
  intro b hb
  rw [testBit_valB_range]
  simp [List.mem_range.1 hb, and_comm]

/-- a function with a linear table is its own prefect -/
theorem prefect_fixed {f : Boolf} (hf : Reach f) {n w : Nat} {p : Bool} (hn : f.adicity ≤ n) (hw : w < 2 ^ n)
    (he : ∀ i < 2 ^ n, f.eval i.testBit = (linF n w i ^^ p)) : f.prefectWalshAndOddness = .ok (w, p.toNat) ∧ f.prefectBoolf = .ok f := by
  have hq : f.prefectWalshAndOddness = .ok (w, p.toNat) := by
    rw [prefect_any (Reach.obj hf) hn, xorPlaces_congr (v := linAnf n w p) (fun k hk => subXor_lin he hk),
      evenPlaces_congr (v := linAnf n w p) (fun k hk => subXor_lin he hk), xorPlaces_lin hw, evenPlaces_lin]
  refine ⟨hq, ?_⟩
  obtain ⟨z, w', p', t, h, _, _, z3, _, _, z6, z7, z8, z9, _⟩ := C75_prefect f (Reach.obj hf)
  rw [hq] at z3
  cases z3
  have hA : h.adicity ≤ f.adicity := by
    by_contra hc
    unfold Boolf.tt at z9
    simp only at z9
    rw [if_neg (by omega), if_neg (by omega)] at z9
    cases z9
  rw [z7]
  refine congrArg Except.ok (ext_below z8.canon hf.canon hA le_rfl fun j hj => ?_)
  rw [tt_arity_eq z8.canon.toSound hA] at z9
  cases z9
  have h6 := z6 j hj
  rw [List.getElem?_map, List.getElem?_range hj, Option.map_some, Option.some.injEq, ← linF_count] at h6
  rw [h6, he j (lt_of_lt_of_le hj (Nat.pow_le_pow_right (by omega) hn)), linF_less hn hj]
  cases p <;> rfl

theorem prefect_table {f : Boolf} (hf : Obj f) : ∃ h w, ∃ p : Bool, f.prefectBoolf = .ok h ∧ Reach h ∧ h.adicity ≤ f.adicity ∧ w < 2 ^ f.adicity ∧
    f.prefectWalshAndOddness = .ok (w, p.toNat) ∧ ∀ i < 2 ^ f.adicity, h.eval i.testBit = (linF f.adicity w i ^^ p) := by
  obtain ⟨z, w', p', t, h, _, _, z3, _, _, z6, z7, z8, z9, _⟩ := C75_prefect f hf
  have hq := prefect_any hf le_rfl
  rw [z3] at hq
  cases hq
  have hA : h.adicity ≤ f.adicity := by
    by_contra hc
    unfold Boolf.tt at z9
    simp only at z9
    rw [if_neg (by omega), if_neg (by omega)] at z9
    cases z9
  rw [tt_arity_eq z8.canon.toSound hA] at z9
  cases z9
  refine ⟨h, _, _, z7, z8, hA, xorPlaces_lt _ _, z3, fun i hi => ?_⟩
  have h6 := z6 i hi
  rw [List.getElem?_map, List.getElem?_range hi, Option.map_some, Option.some.injEq, ← linF_count] at h6
  rw [h6]
  cases evenPlaces f.adicity (subXor f.adicity fun i => f.eval i.testBit) <;> rfl

theorem linear_of_table {h : Boolf} (hs : Sound h) {n w : Nat} {p : Bool} (hn : h.adicity ≤ n) (he : ∀ i < 2 ^ n, h.eval i.testBit = (linF n w i ^^ p)) :
    h.isLinear = .ok true := by
  obtain ⟨b, b1, _, b3⟩ := linear_iff hs
  rw [b1, b3 ((List.range n).filter w.testBit) p (List.nodup_range.filter _) fun key => ?_]
  rw [← eval_mod hs hn, he _ (Nat.mod_lt _ (Nat.two_pow_pos n)), linF_count]
  unfold parity
  rw [List.countP_filter]
  congr 3
  congr 1
  apply List.countP_congr
  intro b hb
  rw [Nat.testBit_mod_two_pow]
  simp [List.mem_range.1 hb, and_comm]

/-- **C182.** The functions that are their own prefects are the linear ones. -/
theorem C182_linear (f : Boolf) (hf : Reach f) : f.isLinear = .ok true ↔ f.prefectBoolf = .ok f := by
  constructor
  · intro hl
    obtain ⟨b, b1, b2, _⟩ := linear_iff hf.canon.toSound
    rw [hl] at b1
    cases b1
    obtain ⟨A, c, hA, hs, he⟩ := b2.1 rfl
    have hb : ∀ b ∈ A, b < f.adicity := fun b hb => (hf.canon.toSound.adic _).1 le_rfl b (hs b hb)
    exact (prefect_fixed hf le_rfl (BF.valB_range_lt _ _) fun i _ => by rw [he i, parity_lin hA hb]).2
  · intro hp
    obtain ⟨h, w, p, h1, _, h3, _, _, h6⟩ := prefect_table (Reach.obj hf)
    rw [hp] at h1
    cases h1
    exact linear_of_table hf.canon.toSound le_rfl h6

/-- **C182.** The prefect is linear and thus its own prefect. -/
theorem C182_idempotent (f : Boolf) (hf : Obj f) : ∃ h, f.prefectBoolf = .ok h ∧ h.isLinear = .ok true ∧ h.prefectBoolf = .ok h ∧
    h.prefectWalshAndOddness = f.prefectWalshAndOddness := by
  obtain ⟨h, w, p, h1, h2, h3, h4, h5, h6⟩ := prefect_table hf
  obtain ⟨q1, q2⟩ := prefect_fixed h2 h3 h4 h6
  exact ⟨h, h1, linear_of_table h2.canon.toSound h3 h6, q2, by rw [q1, h5]⟩

/-! ## Examples -/

example : ∃ f g, newTT (.list [0, 0, 0, 1]) = .ok f ∧ newTT (.list [0, 1]) = .ok g ∧ Obj f ∧ Obj g ∧ f.prefectWalshAndOddness = .ok (3, 1) ∧
    g.prefectWalshAndOddness = .ok (1, 0) := by
  have h : newTT (.list [0, 0, 0, 1]) = .ok { atomvals := [0, 1], root := ⟨[false, false, false, true]⟩, adicity := 2, valency := 2 } := by decide
  have h' : newTT (.list [0, 1]) = .ok { atomvals := [0], root := ⟨[false, true]⟩, adicity := 1, valency := 1 } := by decide
  exact ⟨_, _, h, h', Reach.obj (reach_newTT h), Reach.obj (reach_newTT h'), by decide, by decide⟩

example : zheToPrefect 9 2 = .ok (3, 0) ∧ zheToPrefect 9 3 = .ok (3, 0) := by decide

end Verif.BF
