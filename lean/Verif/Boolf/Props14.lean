import Verif.Boolf.Props13
import Mathlib.Tactic.FieldSimp
import Mathlib.Algebra.Order.Field.Rat

/-!
# Property C80: linear functions, fractions and distances
-/

namespace Verif.BF
open Verif.Py Verif.BV Verif.P Verif.W
open Verif.A hiding Mat

/-! ### Linear functions -/

/-- the number of the places that are digits 1 of the key is odd -/
def parity (A : List Nat) (key : Nat) : Bool := decide (A.countP key.testBit % 2 = 1)

theorem parity_cons (p : Nat) (A : List Nat) (key : Nat) : parity (p :: A) key = (key.testBit p ^^ parity A key) := by
  unfold parity
  rw [List.countP_cons]
  cases key.testBit p
  · simp
  · simp only [if_true, Bool.true_xor]
    rw [← decide_not]
    apply decide_eq_decide.2
    omega

theorem parity_xor (A : List Nat) (x y : Nat) : parity A (x ^^^ y) = (parity A x ^^ parity A y) := by
  induction A with
  | nil => rfl
  | cons p A ih =>
    rw [parity_cons, parity_cons, parity_cons, ih, Nat.testBit_xor]
    cases x.testBit p <;> cases y.testBit p <;> cases parity A x <;> cases parity A y <;> rfl

theorem parity_zero (A : List Nat) : parity A 0 = false := by
  unfold parity
  rw [List.countP_eq_zero.2 (by simp)]
  rfl

theorem parity_congr {A : List Nat} {x y : Nat} (h : ∀ p ∈ A, x.testBit p = y.testBit p) : parity A x = parity A y := by
  unfold parity
  rw [List.countP_congr (fun p hp => by rw [h p hp])]

theorem root_table {f : Boolf} (h : Sound f) : f.root.vector = (List.range (2 ^ f.atomvals.length)).map fun j => f.eval (rowEntry f.atomvals j).testBit := by
  apply List.ext_getElem?
  intro j
  by_cases hj : j < 2 ^ f.atomvals.length
  · rw [List.getElem?_map, List.getElem?_range hj, Option.map_some]
    unfold Boolf.eval
    rw [rowEntry_digits h hj, List.getD_eq_getElem?_getD, List.getElem?_eq_getElem (by rw [h.len]; exact hj)]
    rfl
  · rw [List.getElem?_eq_none (by rw [h.len]; omega), List.getElem?_eq_none (by simpa using hj)]

theorem countP_list (W : List Nat) (q : Nat → Bool) : W.countP q = (List.range W.length).countP fun k => q (W.getD k 0) := by
  have : W = (List.range W.length).map fun k => W.getD k 0 := by
    apply List.ext_getElem?
    intro k
    by_cases hk : k < W.length
    · rw [List.getElem?_map, List.getElem?_range hk, Option.map_some, List.getD_eq_getElem?_getD, List.getElem?_eq_getElem hk]; rfl
    · rw [List.getElem?_eq_none (by omega), List.getElem?_eq_none (by simpa using hk)]
  conv_lhs => rw [this]
  rw [List.countP_map]
  rfl

/-- the atoms whose ranks are digits of `w` -/
theorem linF_parity {W : List Nat} (hW : W.Nodup) (w key : Nat) :
    linF W.length w (valB (W.map key.testBit)) = parity (W.filter fun p => w.testBit (W.idxOf p)) key := by
  rw [linF_count]
  unfold parity
  rw [List.countP_filter, countP_list W, List.countP_congr]
  intro k hk
  have hk := List.mem_range.1 hk
  rw [testBit_valB_map, List.getD_eq_getElem?_getD, List.getElem?_eq_getElem hk]
  simp only [Option.map_some, Option.getD_some, hW.idxOf_getElem k hk]
  rw [Bool.and_comm]

theorem parity_linF {W A : List Nat} (hW : W.Nodup) (hA : A.Nodup) {j : Nat} :
    parity A (rowEntry W j) = linF W.length (valB ((List.range W.length).map fun k => decide (W.getD k 0 ∈ A))) j := by
  rw [linF_count]
  unfold parity
  have hin : ∀ p, (rowEntry W j).testBit p = true → p ∈ W := by
    intro p hp
    obtain ⟨k, h1, _⟩ := (testBit_rowEntry hW j p).1 hp
    exact List.mem_of_getElem? h1
  have e1 : A.countP (rowEntry W j).testBit = (A.filter fun p => decide (p ∈ W)).countP (rowEntry W j).testBit := by
    rw [List.countP_filter]
    apply List.countP_congr
    intro p _
    simp only [Bool.and_eq_true, decide_eq_true_eq]
    exact ⟨fun h => ⟨h, hin p h⟩, fun h => h.1⟩
  have e2 : (A.filter fun p => decide (p ∈ W)).Perm (W.filter fun p => decide (p ∈ A)) := by
    rw [List.perm_ext_iff_of_nodup (hA.filter _) (hW.filter _)]
    intro p
    simp only [List.mem_filter, decide_eq_true_eq]
    exact And.comm
  rw [e1, e2.countP_eq, List.countP_filter, countP_list W, List.countP_congr]
  intro k hk
  have hk := List.mem_range.1 hk
  have hg : W[k]? = some (W.getD k 0) := by rw [List.getD_eq_getElem?_getD, List.getElem?_eq_getElem hk]; rfl
  rw [rowEntry_testBit_iff hW hg, testBit_digits, decide_eq_true hk, Bool.true_and, Bool.and_comm]

theorem linear_iff {f : Boolf} (h : Sound f) : ∃ b, f.isLinear = .ok b ∧
    (b = true ↔ ∃ (A : List Nat) (c : Bool), A.Nodup ∧ (∀ p ∈ A, p ∈ f.atomvals) ∧ ∀ key : Nat, f.eval key.testBit = (parity A key ^^ c)) ∧
    ∀ (A : List Nat) (c : Bool), A.Nodup → (∀ key : Nat, f.eval key.testBit = (parity A key ^^ c)) → b = true := by
  unfold Boolf.isLinear
  by_cases hn : f.atomvals.length = 0
  · have hl := h.len
    rw [hn] at hl
    obtain ⟨c, hc⟩ := List.length_eq_one_iff.1 hl
    have hr : f.root = ⟨[c]⟩ := by rw [← hc]
    have : linearToWalshAndOddness f.root = .ok (0, c.toNat) := by rw [hr]; cases c <;> decide
    rw [this]
    refine ⟨true, rfl, ⟨fun _ => ⟨[], c, List.nodup_nil, by simp, fun key => ?_⟩, fun _ => rfl⟩, fun _ _ _ _ => rfl⟩
    unfold Boolf.eval
    rw [List.eq_nil_of_length_eq_zero hn, hc]
    cases c <;> rfl
  · have hn : 0 < f.atomvals.length := by omega
    have hlen : f.root.length = 2 ^ f.atomvals.length := h.len
    obtain ⟨c1, c2⟩ := C30_walsh_and_oddness_sound _ hn f.root hlen
    -- a parity is accepted
    have acc : ∀ (A : List Nat) (c : Bool), A.Nodup → (∀ key : Nat, f.eval key.testBit = (parity A key ^^ c)) →
        ∃ wp, linearToWalshAndOddness f.root = .ok wp := by
      intro A c hA he
      have hv : f.root = ⟨(List.range (2 ^ f.atomvals.length)).map fun i =>
          linF f.atomvals.length (valB ((List.range f.atomvals.length).map fun k => decide (f.atomvals.getD k 0 ∈ A))) i ^^ decide (c.toNat = 1)⟩ := by
        show (⟨f.root.vector⟩ : Binv) = _
        rw [root_table h]
        congr 1
        apply List.map_congr_left
        intro j _
        rw [he, parity_linF h.nodup hA]
        cases c <;> rfl
      rw [hv, lwo_eq hn (BF.valB_range_lt _ _) (by cases c <;> decide)]
      exact ⟨_, rfl⟩
    cases hl : linearToWalshAndOddness f.root with
    | ok wp =>
      obtain ⟨w, p⟩ := wp
      refine ⟨true, rfl, ⟨fun _ => ?_, fun _ => rfl⟩, fun _ _ _ _ => rfl⟩
      obtain ⟨hw, hp, hm⟩ := c1 w p hl
      obtain ⟨b, hb, _, _, hb4⟩ := C29_linear f.atomvals.length w hn hw (some (p : Int)) (by
        rcases (show p = 0 ∨ p = 1 by omega) with rfl | rfl
        · right; left; rfl
        · right; right; rfl)
      rw [hm] at hb
      cases hb
      refine ⟨f.atomvals.filter fun x => w.testBit (f.atomvals.idxOf x), decide ((some (p : Int) : Option Int) = some 1), h.nodup.filter _,
        fun x hx => (List.mem_filter.1 hx).1, fun key => ?_⟩
      rw [← linF_parity h.nodup, linF_count]
      unfold Boolf.eval
      rw [List.getD_eq_getElem?_getD, hb4 _ (valB_map_lt _ _)]
      rfl
    | error e =>
      have he : e = .notWalshRow := by
        have := c2 (fun wp hwp => by rw [hl] at hwp; cases hwp)
        rw [hl] at this
        exact Except.error.inj this
      subst he
      refine ⟨false, rfl, ⟨fun hc => (nomatch hc), fun ⟨A, c, hA, _, hk⟩ => ?_⟩, fun A c hA hk => ?_⟩ <;>
      · obtain ⟨wp, hwp⟩ := acc A c hA hk
        rw [hl] at hwp
        cases hwp

theorem val_ok {f : Boolf} (h : Sound f) (key : Nat) (b : Bool) : f.getItem key = .ok b ↔ f.eval key.testBit = b := by
  rw [getItem_eq h, Except.ok.injEq]

/-- **C80.** `is_linear` tells whether the function is the exclusive or of some atoms and a constant.  (The constants are linear.) -/
theorem C80_linear (f : Boolf) (hf : Obj f) : ∃ b, f.isLinear = .ok b ∧
    (b = true ↔ ∃ (A : List Nat) (c : Bool), A.Nodup ∧ ∀ key : Nat, f.getItem key = .ok (decide (A.countP key.testBit % 2 = 1) ^^ c)) := by
  have h := hf.good.toSound
  obtain ⟨b, b1, b2, b3⟩ := linear_iff h
  refine ⟨b, b1, fun hb => ?_, fun ⟨A, c, hA, hk⟩ => b3 A c hA fun key => (val_ok h key _).1 (hk key)⟩
  obtain ⟨A, c, hA, _, hk⟩ := b2.1 hb
  exact ⟨A, c, hA, fun key => (val_ok h key _).2 (hk key)⟩

/-- **C80.** For a function built by the library the atoms in question are those of the function. -/
theorem C80_linear_atoms (f : Boolf) (hf : Reach f) : ∃ b, f.isLinear = .ok b ∧
    (b = true ↔ ∃ c : Bool, ∀ key : Nat, f.getItem key = .ok (decide (f.atomvals.countP key.testBit % 2 = 1) ^^ c)) := by
  have h := hf.canon.toSound
  obtain ⟨b, b1, b2, b3⟩ := linear_iff h
  refine ⟨b, b1, fun hb => ?_, fun ⟨c, hk⟩ => b3 f.atomvals c h.nodup fun key => (val_ok h key _).1 (hk key)⟩
  obtain ⟨A, c, hA, hsub, hk⟩ := b2.1 hb
  refine ⟨c, fun key => (val_ok h key _).2 ?_⟩
  have hp : A.Perm f.atomvals := by
    rw [List.perm_ext_iff_of_nodup hA h.nodup]
    intro p
    refine ⟨hsub p, fun hp => ?_⟩
    by_contra hc
    obtain ⟨x, hx⟩ := ((C48_atoms f hf).2.1 p).1 hp
    apply hx
    rw [getItem_eq h, getItem_eq h, hk, hk, parity_congr (x := x) (y := x ^^^ 2 ^ p)]
    intro q hq
    rw [Nat.testBit_xor, Nat.testBit_two_pow_of_ne (n := p) (m := q) (fun e => hc (by rw [e]; exact hq)), Bool.xor_false]
  rw [hk]
  unfold parity
  rw [hp.countP_eq]

/-- `key` without the digits at places outside the list -/
def mask (L : List Nat) (key : Nat) : Nat := L.foldr (fun p acc => if key.testBit p then 2 ^ p ^^^ acc else acc) 0

theorem testBit_mask {L : List Nat} (hL : L.Nodup) (key q : Nat) : (mask L key).testBit q = (decide (q ∈ L) && key.testBit q) := by
  induction L with
  | nil => simp [mask]
  | cons p L ih =>
    have hp := (List.nodup_cons.1 hL).1
    have ih := ih (List.nodup_cons.1 hL).2
    have e : mask (p :: L) key = if key.testBit p then 2 ^ p ^^^ mask L key else mask L key := rfl
    rw [e]
    by_cases hq : q = p
    · subst hq
      cases hk : key.testBit q
      · simp [ih, hp, hk]
      · simp [ih, hp, Nat.testBit_xor, Nat.testBit_two_pow_self]
    · cases hk : key.testBit p
      · simp [ih, hq]
      · simp [ih, hq, Nat.testBit_xor, Ne.symm hq]

theorem affine_parity (g : Nat → Bool) (h0 : g 0 = false) (hg : ∀ x y, g (x ^^^ y) = (g x ^^ g y)) (L : List Nat) (key : Nat) :
    g (mask L key) = parity (L.filter fun p => g (2 ^ p)) key := by
  induction L with
  | nil => exact h0
  | cons p L ih =>
    have e : mask (p :: L) key = if key.testBit p then 2 ^ p ^^^ mask L key else mask L key := rfl
    rw [e, List.filter_cons]
    cases hk : key.testBit p <;> cases hp : g (2 ^ p) <;> simp [ih, hg, hp, parity_cons, hk]

/-- **C80.** `is_linear` tells whether the value at the exclusive or of two keys is the exclusive or of their values and the value at 0. -/
theorem C80_linear_affine (f : Boolf) (hf : Obj f) : ∃ b, f.isLinear = .ok b ∧ (b = true ↔
    ∀ (x y : Nat) (u p q : Bool), f.getItem 0 = .ok u → f.getItem x = .ok p → f.getItem y = .ok q → f.getItem ((x ^^^ y : Nat) : Nat) = .ok (u ^^ p ^^ q)) := by
  have h := hf.good.toSound
  obtain ⟨b, b1, b2, b3⟩ := linear_iff h
  refine ⟨b, b1, fun hb x y u p q hu hp hq => ?_, fun hs => ?_⟩
  · obtain ⟨A, c, _, _, hk⟩ := b2.1 hb
    rw [val_ok h] at hu hp hq ⊢
    rw [hk] at hu hp hq ⊢
    rw [parity_zero] at hu
    rw [parity_xor, ← hu, ← hp, ← hq]
    cases parity A x <;> cases parity A y <;> cases c <;> rfl
  · have hg : ∀ x y : Nat, (f.eval (x ^^^ y).testBit ^^ f.eval (Nat.testBit 0)) =
        ((f.eval x.testBit ^^ f.eval (Nat.testBit 0)) ^^ (f.eval y.testBit ^^ f.eval (Nat.testBit 0))) := by
      intro x y
      rw [(val_ok h _ _).1 (hs x y _ _ _ (getItem_eq h 0) (getItem_eq h x) (getItem_eq h y))]
      cases f.eval x.testBit <;> cases f.eval y.testBit <;> cases f.eval (Nat.testBit 0) <;> rfl
    refine b3 (f.atomvals.filter fun p => f.eval (2 ^ p).testBit ^^ f.eval (Nat.testBit 0)) (f.eval (Nat.testBit 0)) (h.nodup.filter _) fun key => ?_
    rw [← affine_parity (fun k => f.eval k.testBit ^^ f.eval (Nat.testBit 0)) (by simp) hg]
    have : f.eval (mask f.atomvals key).testBit = f.eval key.testBit := by
      apply Boolf.eval_congr
      intro p hp
      rw [testBit_mask h.nodup, decide_eq_true hp, Bool.true_and]
    rw [this]
    cases f.eval key.testBit <;> cases f.eval (Nat.testBit 0) <;> rfl

/-! ### Fractions -/

/-- **C80.** `weight_fract` is the share of true places among the first `2 ** n`, for every `n` from the adicity on. -/
theorem C80_weight_fract (f : Boolf) (hf : Obj f) : ∃ r, f.weightFract = .ok r ∧ ∀ n : Nat, f.adicity ≤ n → r = (truePlaces f n : Rat) / 2 ^ n := by
  have h := hf.good.toSound
  have hlen : f.root.length = 2 ^ f.atomvals.length := h.len
  unfold Boolf.weightFract pyFraction
  rw [hlen, if_neg (by have := Nat.two_pow_pos f.atomvals.length; omega)]
  refine ⟨_, rfl, fun n hn => ?_⟩
  have hle : f.valency ≤ n := by rw [h.val]; exact asc_length_le h.asc ((h.adic n).1 hn)
  rw [truePlaces_eq h, countF_eval h hn, ← h.val, Rat.mkRat_eq_div]
  push_cast
  rw [show (2 : Rat) ^ n = 2 ^ (n - f.valency) * 2 ^ f.valency by rw [← pow_add, Nat.sub_add_cancel hle]]
  field_simp

/-- number with the first `2 ** n` values as binary digits, the first value as the highest digit -/
noncomputable def bigEndian (f : Boolf) (n : Nat) : Nat := by
  classical exact ∑ i ∈ Finset.range (2 ^ n), if f.getItem i = .ok true then 2 ^ (2 ^ n - 1 - i) else 0

theorem valB_sum (l : List Bool) : valB l = ∑ i ∈ Finset.range l.length, if l.getD i false = true then 2 ^ i else 0 := by
  induction l with
  | nil => rfl
  | cons b l ih =>
    rw [valB, List.length_cons, Finset.sum_range_succ', ih, Nat.add_comm, Finset.mul_sum]
    congr 1
    · apply Finset.sum_congr rfl
      intro i _
      simp only [List.getD_cons_succ]
      split
      · rw [Nat.pow_succ, Nat.mul_comm]
      · rfl
    · cases b <;> simp

theorem bigEndian_eq {f : Boolf} (h : Sound f) (n : Nat) : bigEndian f n = valB ((List.range (2 ^ n)).map fun i => f.eval i.testBit).reverse := by
  classical
  rw [valB_sum]
  unfold bigEndian
  simp only [List.length_reverse, List.length_map, List.length_range]
  rw [← Finset.sum_range_reflect]
  apply Finset.sum_congr rfl
  intro i hi
  have hi := Finset.mem_range.1 hi
  rw [reverse_range_map, List.getD_eq_getElem?_getD, List.getElem?_map, List.getElem?_range hi]
  simp only [Option.map_some, Option.getD_some]
  rw [show 2 ^ n - 1 - (2 ^ n - 1 - i) = i by omega]
  apply if_congr _ rfl rfl
  exact val_ok h _ _

theorem eval_high {f : Boolf} (h : Sound f) {n i : Nat} (hn : f.adicity ≤ n) (hi : i < 2 ^ n) : f.eval (2 ^ n + i).testBit = f.eval i.testBit := by
  apply Boolf.eval_congr
  intro p hp
  have hp := h.adic_lt hp
  have e := Nat.testBit_two_pow_mul_add 1 hi p
  rw [Nat.mul_one, if_pos (by omega)] at e
  exact e

theorem bigEndian_succ {f : Boolf} (h : Sound f) {n : Nat} (hn : f.adicity ≤ n) : bigEndian f (n + 1) = (2 ^ 2 ^ n + 1) * bigEndian f n := by
  rw [bigEndian_eq h, bigEndian_eq h, Nat.pow_succ, Nat.mul_two, List.range_add, List.map_append, List.map_map, List.reverse_append, valB_append]
  have : (List.range (2 ^ n)).map ((fun i => f.eval i.testBit) ∘ fun x => 2 ^ n + x) = (List.range (2 ^ n)).map fun i => f.eval i.testBit := by
    apply List.map_congr_left
    intro i hi
    exact eval_high h hn (List.mem_range.1 hi)
  rw [this]
  simp only [List.length_reverse, List.length_map, List.length_range]
  ring

theorem bigEndian_fraction {f : Boolf} (h : Sound f) {n : Nat} (hn : f.adicity ≤ n) :
    bigEndian f n * (2 ^ 2 ^ f.adicity - 1) = bigEndian f f.adicity * (2 ^ 2 ^ n - 1) := by
  induction n, hn using Nat.le_induction with
  | base => rfl
  | succ n hn ih =>
    have h1 : 1 ≤ 2 ^ 2 ^ n := Nat.one_le_two_pow
    have e : 2 ^ 2 ^ (n + 1) - 1 = (2 ^ 2 ^ n + 1) * (2 ^ 2 ^ n - 1) := by
      rw [Nat.pow_succ 2 n, Nat.pow_mul]
      obtain ⟨m, hm⟩ : ∃ m, 2 ^ 2 ^ n = m + 1 := ⟨2 ^ 2 ^ n - 1, by omega⟩
      rw [hm, Nat.add_sub_cancel, Nat.pow_two]
      have : (m + 1) * (m + 1) = (m + 1 + 1) * m + 1 := by ring
      omega
    rw [bigEndian_succ h hn, e, Nat.mul_assoc, ih]
    ring

theorem den_pos (n : Nat) : 0 < 2 ^ 2 ^ n - 1 := by
  have : 2 ^ 1 ≤ 2 ^ 2 ^ n := Nat.pow_le_pow_right (by decide) Nat.one_le_two_pow
  omega

theorem valueFract_eq {f : Boolf} (h : Sound f) : f.valueFract = .ok ((bigEndian f f.adicity : Rat) / ((2 ^ 2 ^ f.adicity - 1 : Nat) : Rat)) := by
  unfold Boolf.valueFract pyFraction
  rw [tt_noArg_eq, tt_arity_eq h le_rfl]
  simp only [bind, Except.bind, Nat.one_shiftLeft]
  rw [if_neg (by have := den_pos f.adicity; omega), ← bigEndian_eq h, Rat.mkRat_eq_div]
  rfl

/-- **C80.** `value_fract` is the binary fraction of the infinitely repeated truth table: for every `n` from the adicity on it is the number with the first `2 ** n` values
as digits (the first one as the highest), divided by the number with as many digits 1. -/
theorem C80_value_fract (f : Boolf) (hf : Obj f) : ∃ r, f.valueFract = .ok r ∧ ∀ n : Nat, f.adicity ≤ n →
    r = (bigEndian f n : Rat) / (2 ^ 2 ^ n - 1) := by
  have h := hf.good.toSound
  refine ⟨_, valueFract_eq h, fun n hn => ?_⟩
  have e := bigEndian_fraction h hn
  have d1 := den_pos n
  have d2 := den_pos f.adicity
  have c : (2 : Rat) ^ 2 ^ n - 1 = ((2 ^ 2 ^ n - 1 : Nat) : Rat) := by
    rw [Nat.cast_sub Nat.one_le_two_pow]; push_cast; rfl
  rw [c, div_eq_div_iff (by exact_mod_cast (by omega : (2 ^ 2 ^ f.adicity - 1 : Nat) ≠ 0)) (by exact_mod_cast (by omega : (2 ^ 2 ^ n - 1 : Nat) ≠ 0))]
  exact_mod_cast e.symm

theorem testBit_bigEndian {f : Boolf} (h : Sound f) {n i : Nat} (hi : i < 2 ^ n) : (bigEndian f n).testBit (2 ^ n - 1 - i) = f.eval i.testBit := by
  rw [bigEndian_eq h, reverse_range_map, testBit_digits, decide_eq_true (by omega), show 2 ^ n - 1 - (2 ^ n - 1 - i) = i by omega, Bool.true_and]

theorem bigEndian_lt {f : Boolf} (h : Sound f) (n : Nat) : bigEndian f n < 2 ^ 2 ^ n := by
  rw [bigEndian_eq h, reverse_range_map]
  exact BF.valB_range_lt _ _

theorem value_lt_iff {f g : Boolf} (hf : Obj f) (hg : Obj g) {r s : Rat} (hr : f.valueFract = .ok r) (hs : g.valueFract = .ok s) {n : Nat}
    (h1 : f.adicity ≤ n) (h2 : g.adicity ≤ n) : r < s ↔ bigEndian f n < bigEndian g n := by
  obtain ⟨r', e1, e2⟩ := C80_value_fract f hf
  obtain ⟨s', e3, e4⟩ := C80_value_fract g hg
  rw [hr] at e1
  rw [hs] at e3
  cases e1
  cases e3
  have c : (2 : Rat) ^ 2 ^ n - 1 = ((2 ^ 2 ^ n - 1 : Nat) : Rat) := by
    rw [Nat.cast_sub Nat.one_le_two_pow]; push_cast; rfl
  have d := den_pos n
  rw [e2 n h1, e4 n h2, c, div_lt_div_iff_of_pos_right (by exact_mod_cast d)]
  exact_mod_cast Iff.rfl

/-- **C80.** The order of the values is that of the truth tables: one is smaller than the other if it is false at the first place where they differ. -/
theorem C80_value_order (f g : Boolf) (hf : Obj f) (hg : Obj g) (r s : Rat) (hr : f.valueFract = .ok r) (hs : g.valueFract = .ok s) :
    r < s ↔ ∃ k : Nat, f.getItem k = .ok false ∧ g.getItem k = .ok true ∧ ∀ i < k, f.getItem i = g.getItem i := by
  have h := hf.good.toSound
  have h' := hg.good.toSound
  constructor
  · intro hlt
    rw [value_lt_iff hf hg hr hs (le_max_left f.adicity g.adicity) (le_max_right _ _)] at hlt
    obtain ⟨k, k1, k2, k3⟩ := lt_of_top hlt
    have hk : k < 2 ^ max f.adicity g.adicity := by
      by_contra hc
      rw [testBit_of_lt (bigEndian_lt h' _) (by omega)] at k2
      cases k2
    generalize hm : max f.adicity g.adicity = m at *
    have e : k = 2 ^ m - 1 - (2 ^ m - 1 - k) := by omega
    rw [e, testBit_bigEndian h (by omega)] at k1
    rw [e, testBit_bigEndian h' (by omega)] at k2
    refine ⟨2 ^ m - 1 - k, (val_ok h _ _).2 k1, (val_ok h' _ _).2 k2, fun i hi => ?_⟩
    have := k3 (2 ^ m - 1 - i) (by omega)
    rw [testBit_bigEndian h (by omega), testBit_bigEndian h' (by omega)] at this
    rw [getItem_eq h, getItem_eq h', this]
  · rintro ⟨k, k1, k2, k3⟩
    have hk : k < 2 ^ max (max f.adicity g.adicity) k :=
      Nat.lt_of_lt_of_le Nat.lt_two_pow_self (Nat.pow_le_pow_right (by decide) (le_max_right _ _))
    rw [value_lt_iff hf hg hr hs (n := max (max f.adicity g.adicity) k) (by omega) (by omega)]
    generalize max (max f.adicity g.adicity) k = m at *
    apply Nat.lt_of_testBit (2 ^ m - 1 - k)
    · rw [testBit_bigEndian h hk]; exact (val_ok h _ _).1 k1
    · rw [testBit_bigEndian h' hk]; exact (val_ok h' _ _).1 k2
    · intro l hl
      by_cases hl' : l < 2 ^ m
      · have := k3 (2 ^ m - 1 - l) (by omega)
        rw [getItem_eq h, getItem_eq h', Except.ok.injEq] at this
        rw [show l = 2 ^ m - 1 - (2 ^ m - 1 - l) by omega, testBit_bigEndian h (by omega), testBit_bigEndian h' (by omega), this]
      · rw [testBit_of_lt (bigEndian_lt h _) (by omega), testBit_of_lt (bigEndian_lt h' _) (by omega)]

/-- **C80.** Functions with the same `value_fract` are equal. -/
theorem C80_value_injective (f g : Boolf) (hf : Reach f) (hg : Reach g) (r : Rat) (hr : f.valueFract = .ok r) (hs : g.valueFract = .ok r) : f = g := by
  have h := hf.canon.toSound
  have h' := hg.canon.toSound
  apply hf.canon.ext_key hg.canon
  intro k
  induction k using Nat.strong_induction_on with
  | _ k ih =>
    rw [getItem_eq h, getItem_eq h']
    cases e1 : f.eval k.testBit <;> cases e2 : g.eval k.testBit
    · rfl
    · exact absurd ((C80_value_order f g hf.obj hg.obj r r hr hs).2 ⟨k, (val_ok h _ _).2 e1, (val_ok h' _ _).2 e2, ih⟩) (lt_irrefl r)
    · exact absurd ((C80_value_order g f hg.obj hf.obj r r hs hr).2 ⟨k, (val_ok h' _ _).2 e2, (val_ok h _ _).2 e1, fun i hi => (ih i hi).symm⟩) (lt_irrefl r)
    · rfl

/-- **C80.** The fractions of a function and its complement have the sum 1. -/
theorem C80_complement (f : Boolf) (hf : Obj f) : ∃ c r s u v, f.complement = .ok c ∧ f.valueFract = .ok r ∧ c.valueFract = .ok s ∧ r + s = 1 ∧
    f.weightFract = .ok u ∧ c.weightFract = .ok v ∧ u + v = 1 := by
  have h := hf.good.toSound
  obtain ⟨c, c1, c2, c3⟩ := complement_spec h
  have hc : Obj c := c2.reach.obj
  obtain ⟨r, r1, r2⟩ := C80_value_fract f hf
  obtain ⟨s, s1, s2⟩ := C80_value_fract c hc
  obtain ⟨u, u1, u2⟩ := C80_weight_fract f hf
  obtain ⟨v, v1, v2⟩ := C80_weight_fract c hc
  refine ⟨c, r, s, u, v, c1, r1, s1, ?_, u1, v1, ?_⟩
  · rw [r2 _ (le_max_left f.adicity c.adicity), s2 _ (le_max_right f.adicity c.adicity)]
    generalize max f.adicity c.adicity = n
    have e : bigEndian c n = 2 ^ 2 ^ n - 1 - bigEndian f n := by
      rw [bigEndian_eq c2.toSound, bigEndian_eq h, reverse_range_map, reverse_range_map]
      have := valB_map_not (List.range (2 ^ n)) (fun k => f.eval (2 ^ n - 1 - k).testBit)
      rw [List.length_range] at this
      rw [← this]
      congr 1
      apply List.map_congr_left
      intro k _
      rw [c3]
    have hlt := bigEndian_lt h n
    have d := den_pos n
    have e' : (bigEndian c n : Rat) = ((2 ^ 2 ^ n - 1 : Nat) : Rat) - bigEndian f n := by
      rw [e, Nat.cast_sub (by omega)]
    have cc : (2 : Rat) ^ 2 ^ n - 1 = ((2 ^ 2 ^ n - 1 : Nat) : Rat) := by
      rw [Nat.cast_sub Nat.one_le_two_pow]; push_cast; rfl
    have hne : ((2 ^ 2 ^ n - 1 : Nat) : Rat) ≠ 0 := by exact_mod_cast (by omega : (2 ^ 2 ^ n - 1 : Nat) ≠ 0)
    rw [cc, e', ← add_div, add_sub_cancel, div_self hne]
  · rw [u2 _ (le_max_left f.adicity c.adicity), v2 _ (le_max_right f.adicity c.adicity)]
    generalize max f.adicity c.adicity = n
    have e : truePlaces f n + truePlaces c n = 2 ^ n := by
      classical
      rw [truePlaces_eq h, truePlaces_eq c2.toSound, countF_card, countF_card]
      have := Finset.card_filter_add_card_filter_not (s := Finset.range (2 ^ n)) (fun i => f.eval i.testBit = true)
      rw [Finset.card_range] at this
      have e' : ((Finset.range (2 ^ n)).filter fun i => c.eval i.testBit = true) = (Finset.range (2 ^ n)).filter fun i => ¬ f.eval i.testBit = true := by
        ext i
        simp [c3]
      rw [e', this]
    rw [← add_div, ← Nat.cast_add, e]
    push_cast
    exact div_self (by positivity)

/-! ### Distances -/

theorem countP_card (m : Nat) (p : Nat → Bool) : (List.range m).countP p = ((Finset.range m).filter fun i => p i = true).card := by
  induction m with
  | zero => rfl
  | succ m ih =>
    rw [List.range_succ, List.countP_append, ih, Finset.range_add_one, Finset.filter_insert]
    cases h : p m with
    | true => rw [if_pos rfl, Finset.card_insert_of_notMem (by simp)]; simp [h]
    | false => simp [h]

theorem linF_overlap {n i : Nat} (hi : i < 2 ^ n) (k : Nat) : linF n k i = decide (Odd (overlap i k)) := by
  rw [linF_count, overlap_eq hi, countP_card]
  apply decide_eq_decide.2
  rw [Nat.odd_iff]
  have : ((Finset.range n).filter fun t => (k.testBit t && i.testBit t) = true) = (Finset.range n).filter fun t => i.testBit t = true ∧ k.testBit t = true := by
    ext t
    simp [and_comm]
  rw [this]

theorem log2_two_pow' (n : Nat) : logFloor ((2 ^ n : Nat) : Int) = .ok n := by
  unfold logFloor
  have := Nat.two_pow_pos n
  rw [if_pos (by omega), Int.toNat_natCast, Nat.log2_two_pow]

theorem distances_eq {f : Boolf} (h : Sound f) {n : Nat} (hn : f.adicity ≤ n) :
    f.walshDistances (.arity n) = .ok ((List.range (2 ^ n)).map fun k => countF n fun i => f.eval i.testBit ^^ linF n k i) := by
  have hm : arityToWalshMatrix n = .ok ((List.range (2 ^ n)).map fun i => (List.range (2 ^ n)).map fun j => (linF n i j).toNat) := by
    by_cases h0 : 0 < n
    · exact walshMatrix_eq h0
    · have : n = 0 := by omega
      subst this
      rfl
  unfold Boolf.walshDistances
  rw [tt_arity_eq h hn]
  simp only [bind, Except.bind, Binv.length, List.length_map, List.length_range]
  rw [log2_two_pow']
  simp only
  rw [hm]
  simp only
  apply mapM_ok
  intro k hk
  have hk := List.mem_range.1 hk
  rw [List.getElem?_map, List.getElem?_range hk]
  simp only [Option.map_some, List.map_map]
  rw [bitwise_eq _ _ _ (by simp [Binv.length])]
  simp only [pure, Except.pure]
  congr 1
  rw [← weight_map]
  congr 2
  rw [List.zipWith_map]
  have : List.zipWith (fun (a b : Nat) => f.eval a.testBit ^^ ((fun x : Nat => decide (x ≠ 0)) ∘ fun j => (linF n k j).toNat) b) (List.range (2 ^ n)) (List.range (2 ^ n)) =
      (List.range (2 ^ n)).map fun i => f.eval i.testBit ^^ linF n k i := by
    rw [List.zipWith_self]
    apply List.map_congr_left
    intro i _
    simp only [Function.comp]
    congr 1
    rcases Bool.eq_false_or_eq_true (linF n k i) with hb | hb <;> simp [hb]
  exact this

open Classical in
/-- **C80.** Entry `k` of `walsh_distances(n)` is the number of places where the truth table differs from row `k` of the Walsh matrix, i.e. from the parity of the number of
common digits with `k`. -/
theorem C80_distances (f : Boolf) (hf : Obj f) :
    (∀ n : Nat, f.adicity ≤ n → ∃ d, f.walshDistances (.arity n) = .ok d ∧ d.length = 2 ^ n ∧ ∀ k < 2 ^ n,
      d[k]? = some ((Finset.range (2 ^ n)).filter fun i => ¬ (f.getItem i = .ok true ↔ Odd (overlap i k))).card) ∧
    (∀ n : Int, 0 ≤ n → n < f.adicity → f.walshDistances (.arity n) = .error .argTooSmall) ∧
    (∀ n : Int, n < 0 → f.walshDistances (.arity n) = .error .valueError) ∧
    f.walshDistances .noArg = f.walshDistances (.arity f.adicity) := by
  have h := hf.good.toSound
  refine ⟨fun n hn => ⟨_, distances_eq h hn, by simp, fun k hk => ?_⟩, fun n h0 hn => ?_, fun n hn => ?_, ?_⟩
  · rw [List.getElem?_map, List.getElem?_range hk, Option.map_some, countF_card]
    congr 2
    ext i
    simp only [Finset.mem_filter, Finset.mem_range]
    apply and_congr_right
    intro hi
    rw [linF_overlap hi, val_ok h]
    by_cases ho : Odd (overlap i k) <;> cases f.eval i.testBit <;> simp [ho]
  · unfold Boolf.walshDistances
    rw [(C51_tt f hf).2.1 n h0 hn]; rfl
  · unfold Boolf.walshDistances
    rw [(C51_tt f hf).2.2.1 n hn]; rfl
  · unfold Boolf.walshDistances
    rw [tt_noArg_eq]

/-- **C80.** The distances and the Walsh spectrum differ by half of the length, except at place 0, where both are the weight. -/
theorem C80_distances_spectrum (f : Boolf) (hf : Obj f) (n : Nat) (hn : f.adicity ≤ n) : ∃ d w, f.walshDistances (.arity n) = .ok d ∧ f.walshSpectrum (.arity n) = .ok w ∧
    ∀ k < 2 ^ n, ∃ (x : Nat) (y : Int), d[k]? = some x ∧ w[k]? = some y ∧ (x : Int) = y + if k = 0 then 0 else 2 ^ (n - 1) := by
  classical
  have h := hf.good.toSound
  refine ⟨_, _, distances_eq h hn, walshSpectrum_eq h hn, fun k hk => ?_⟩
  have hl : k < (fwht (bits n fun i => f.eval i.testBit)).length := by rw [fwht_length (bits_length _ _)]; exact hk
  refine ⟨_, _, by rw [List.getElem?_map, List.getElem?_range hk]; rfl, List.getElem?_eq_getElem hl, ?_⟩
  have h1 := fwht_spec (bits_length n fun i => f.eval i.testBit) hk
  rw [Finset.sum_congr rfl fun j hj => by rw [ent_bits (Finset.mem_range.1 hj)]] at h1
  unfold ent at h1
  rw [List.getD_eq_getElem?_getD, List.getElem?_eq_getElem hl, Option.getD_some] at h1
  simp only
  rw [h1, countF_card, Finset.card_filter]
  have hs := sum_chi hk
  have e : ∀ i ∈ Finset.range (2 ^ n), 2 * ((if (f.eval i.testBit ^^ linF n k i) = true then 1 else 0 : Nat) : Int) =
      2 * (chi n i k * ((f.eval i.testBit).toNat : Int)) + (1 - chi n k i) := by
    intro i hi
    have hi := Finset.mem_range.1 hi
    rw [chi_comm n k i, chi_eq hi, linF_overlap hi]
    by_cases ho : Odd (overlap i k)
    · have he : ¬ Even (overlap i k) := Nat.not_even_iff_odd.2 ho
      cases f.eval i.testBit <;> simp [ho, he]
    · have he : Even (overlap i k) := Nat.not_odd_iff_even.1 ho
      cases f.eval i.testBit <;> simp [ho, he]
  have e2 := Finset.sum_congr rfl e
  rw [Finset.sum_add_distrib, ← Finset.mul_sum, ← Finset.mul_sum, Finset.sum_sub_distrib, hs] at e2
  simp only [Finset.sum_const, Finset.card_range, nsmul_eq_mul, mul_one] at e2
  push_cast at e2 ⊢
  by_cases h0 : k = 0
  · rw [if_pos h0] at e2 ⊢
    linarith
  · rw [if_neg h0] at e2 ⊢
    have : 0 < n := by
      rcases Nat.eq_zero_or_pos n with rfl | hp
      · omega
      · exact hp
    have e3 : (2 : Int) ^ n = 2 * 2 ^ (n - 1) := by exact_mod_cast two_pow_half this
    rw [e3] at e2
    linarith

/-! ### Examples -/

/-- exclusive or of two atoms -/
example : ∃ f, Reach f ∧ f.atomvals = [1, 2] ∧ f.isLinear = .ok true := by
  have h : newTT (.list [0, 0, 1, 1, 1, 1, 0, 0]) =
      .ok { atomvals := [1, 2], root := ⟨[false, true, true, false]⟩, adicity := 3, valency := 2 } := by decide
  exact ⟨_, reach_newTT h, rfl, by decide⟩

/-- the majority of three atoms -/
example : ∃ f, Reach f ∧ f.adicity = 3 ∧ f.isLinear = .ok false ∧ f.weightFract = .ok (1 / 2) ∧ f.valueFract = .ok (23 / 255) ∧
    f.walshDistances = .ok [4, 2, 2, 4, 2, 4, 4, 6] ∧ f.walshSpectrum = .ok [4, -2, -2, 0, -2, 0, 0, 2] := by
  have h : newTT (.list [0, 0, 0, 1, 0, 1, 1, 1]) =
      .ok { atomvals := [0, 1, 2], root := ⟨[false, false, false, true, false, true, true, true]⟩, adicity := 3, valency := 3 } := by decide
  exact ⟨_, reach_newTT h, rfl, by decide, by
    show Except.ok (mkRat 4 8) = _
    rw [Rat.mkRat_eq_div]
    norm_num, by
    show Except.ok (mkRat 23 255) = _
    rw [Rat.mkRat_eq_div]
    norm_num, by decide, by decide⟩

end Verif.BF
