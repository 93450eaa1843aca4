import Verif.Boolf.Props43
import Verif.Boolf.Props41

/-!
# Minimal representatives: candidates, Zhegalkin indices, columns
-/

namespace Verif.BF
open Verif.Py Verif.BV Verif.P Verif.W Verif.SP
open Verif.A hiding Mat

/-! ### candidates whose leading digits are minimal -/

/-- among the elements of `U`, the digits of `z c` from place `i` on are the least -/
def Least {α : Type} (U : α → Prop) (z : α → Nat) (i : Nat) (c : α) : Prop := U c ∧ ∀ d, U d → z c >>> i ≤ z d >>> i

theorem shift_step (z i : Nat) : z >>> i = 2 * (z >>> (i + 1)) + (z.testBit i).toNat := by
  rw [Nat.shiftRight_succ, Nat.testBit_eq_decide_div_mod_eq, Nat.shiftRight_eq_div_pow]
  have := Nat.div_add_mod (z / 2 ^ i) 2
  rcases Nat.mod_two_eq_zero_or_one (z / 2 ^ i) with h | h
  · rw [h]; simp; omega
  · rw [h]; simp; omega

theorem Least.mono {α : Type} {U : α → Prop} {z : α → Nat} {i : Nat} {c : α} (h : Least U z i c) : Least U z (i + 1) c := by
  refine ⟨h.1, fun d hd => ?_⟩
  rw [Nat.shiftRight_succ, Nat.shiftRight_succ]
  exact Nat.div_le_div_right (h.2 d hd)

theorem Least.of_zero {α : Type} {U : α → Prop} {z : α → Nat} {c : α} (h : Least U z 0 c) (i : Nat) : Least U z i c := by
  induction i with
  | zero => exact h
  | succ i ih => exact ih.mono

theorem least_exists {α : Type} {U : α → Prop} (z : α → Nat) (h : ∃ c, U c) : ∃ c, Least U z 0 c := by
  obtain ⟨c, hc⟩ := h
  have hne : ∃ k, ∃ d, U d ∧ z d = k := ⟨z c, c, hc, rfl⟩
  classical
  obtain ⟨d, hd, hk⟩ := Nat.find_spec hne
  refine ⟨d, hd, fun e he => ?_⟩
  simp only [Nat.shiftRight_zero]
  rw [hk]
  exact Nat.find_min' hne ⟨e, he, rfl⟩

theorem least_same {α : Type} {U : α → Prop} {z : α → Nat} {i : Nat} {c d : α} (hc : Least U z i c) (hd : Least U z i d) : z c >>> i = z d >>> i :=
  Nat.le_antisymm (hc.2 d hd.1) (hd.2 c hc.1)

/-- If some of the candidates have digit 0, those remain. -/
theorem least_zeros {α : Type} {U : α → Prop} {z : α → Nat} {i : Nat} (h : ∃ d, Least U z (i + 1) d ∧ (z d).testBit i = false) (c : α) :
    Least U z i c ↔ Least U z (i + 1) c ∧ (z c).testBit i = false := by
  obtain ⟨d, hd, hb⟩ := h
  constructor
  · intro hc
    refine ⟨hc.mono, ?_⟩
    have h1 := hc.2 d hd.1
    have h2 := least_same hc.mono hd
    rw [shift_step (z c), shift_step (z d), hb, h2] at h1
    cases hcb : (z c).testBit i with
    | false => rfl
    | true => rw [hcb] at h1; simp at h1
  · rintro ⟨hc, hcb⟩
    refine ⟨hc.1, fun e he => ?_⟩
    have := hc.2 e he
    rw [shift_step (z c), shift_step (z e), hcb]
    simp only [Bool.toNat_false]
    omega

/-- If all candidates have the same digit, all remain. -/
theorem least_equal {α : Type} {U : α → Prop} {z : α → Nat} {i : Nat} (b : Bool) (h : ∀ d, Least U z (i + 1) d → (z d).testBit i = b) (c : α) :
    Least U z i c ↔ Least U z (i + 1) c := by
  constructor
  · exact Least.mono
  · intro hc
    refine ⟨hc.1, fun e he => ?_⟩
    have h1 := hc.2 e he
    rw [shift_step (z c), shift_step (z e), h c hc]
    by_cases hle : z e >>> (i + 1) ≤ z c >>> (i + 1)
    · have hE : Least U z (i + 1) e := ⟨he, fun d hd => Nat.le_trans hle (hc.2 d hd)⟩
      rw [h e hE]
      omega
    · have := Bool.toNat_le b
      omega

/-- the candidates, where `none` stands for all -/
def InState {α : Type} (U : α → Prop) : Option (List α) → α → Prop
  | some l, c => c ∈ l
  | none, c => U c

/-- The candidates are those whose digits from place `i` on are the least, and they do not have all the same member. -/
structure Inv {α : Type} (U : α → Prop) (z : α → Nat) (g : α → Boolf) (i : Nat) (st : Option (List α)) : Prop where
  least : ∀ c, InState U st c ↔ Least U z i c
  two : ∃ c d, InState U st c ∧ InState U st d ∧ g c ≠ g d

theorem Inv.skip {α : Type} {U : α → Prop} {z : α → Nat} {g : α → Boolf} {i : Nat} {st : Option (List α)} (h : Inv U z g (i + 1) st) (b : Bool)
    (hb : ∀ c, U c → (z c).testBit i = b) : Inv U z g i st :=
  ⟨fun c => (h.least c).trans (least_equal b (fun d hd => hb d hd.1) c).symm, h.two⟩

theorem Inv.ignore {α : Type} {U : α → Prop} {z : α → Nat} {g : α → Boolf} {i : Nat} {all : List α} (h : Inv U z g (i + 1) (some all))
    (hb : ∀ c ∈ all, (z c).testBit i = true) : Inv U z g i (some all) :=
  ⟨fun c => (h.least c).trans (least_equal true (fun d hd => hb d ((h.least d).2 hd)) c).symm, h.two⟩

theorem Inv.take {α : Type} {U : α → Prop} {z : α → Nat} {g : α → Boolf} {i : Nat} {st : Option (List α)} (h : Inv U z g (i + 1) st) {new : List α}
    (hn : ∀ c, c ∈ new ↔ InState U st c ∧ (z c).testBit i = false) (hne : new ≠ []) (c : α) : c ∈ new ↔ Least U z i c := by
  obtain ⟨d, hd⟩ := List.exists_mem_of_ne_nil _ hne
  rw [hn, h.least, least_zeros ⟨d, (h.least d).1 ((hn d).1 hd).1, ((hn d).1 hd).2⟩]

theorem Inv.zero_false {α : Type} {U : α → Prop} {z : α → Nat} {g : α → Boolf} {st : Option (List α)} (h : Inv U z g 0 st)
    (hg : ∀ c d, U c → U d → z c = z d → g c = g d) : False := by
  obtain ⟨c, d, hc, hd, hne⟩ := h.two
  have hc' := (h.least c).1 hc
  have hd' := (h.least d).1 hd
  exact hne (hg c d hc'.1 hd'.1 (by simpa using least_same hc' hd'))

theorem repLoop_one {α : Type} {member : α → Except Err Boolf} {g : α → Boolf} {l : List α} (hm : ∀ c ∈ l, member c = .ok (g c)) (r : Boolf) :
    ((∀ c ∈ l, g c = r) → repLoop member l [r] = .ok (some r)) ∧ ((∃ c ∈ l, g c ≠ r) → repLoop member l [r] = .ok none) := by
  induction l with
  | nil => exact ⟨fun _ => rfl, fun ⟨c, hc, _⟩ => absurd hc (by simp)⟩
  | cons a l ih =>
    have ih := ih fun c hc => hm c (by simp [hc])
    have ha := hm a (by simp)
    constructor
    · intro h
      unfold repLoop
      rw [ha]
      simp only [bind, Except.bind]
      rw [h a (by simp)]
      simpa using ih.1 fun c hc => h c (by simp [hc])
    · rintro ⟨c, hc, hne⟩
      unfold repLoop
      rw [ha]
      simp only [bind, Except.bind]
      by_cases har : g a = r
      · rw [har]
        rcases List.mem_cons.1 hc with rfl | hc
        · exact absurd har hne
        · simpa using ih.2 ⟨c, hc, hne⟩
      · simp [har, pure, Except.pure]

theorem repLoop_spec {α : Type} {member : α → Except Err Boolf} {g : α → Boolf} {l : List α} (hm : ∀ c ∈ l, member c = .ok (g c)) (hne : l ≠ []) :
    (∃ r, repLoop member l [] = .ok (some r) ∧ ∀ c ∈ l, g c = r) ∨ (repLoop member l [] = .ok none ∧ ∃ c ∈ l, ∃ d ∈ l, g c ≠ g d) := by
  cases l with
  | nil => exact absurd rfl hne
  | cons a l =>
    have h1 := repLoop_one (l := l) (fun c hc => hm c (by simp [hc])) (g a)
    have h0 : repLoop member (a :: l) [] = repLoop member l [g a] := by
      conv_lhs => unfold repLoop
      rw [hm a (by simp)]
      simp only [bind, Except.bind]
      simp
    rw [h0]
    by_cases h : ∀ c ∈ l, g c = g a
    · refine .inl ⟨g a, h1.1 h, fun c hc => ?_⟩
      rcases List.mem_cons.1 hc with rfl | hc
      · rfl
      · exact h c hc
    · push Not at h
      obtain ⟨c, hc, hcne⟩ := h
      exact .inr ⟨h1.2 ⟨c, hc, hcne⟩, c, by simp [hc], a, by simp, hcne⟩

/-- The check of the candidates: either they all have the same member, which is that of a minimal candidate, or the search goes on. -/
theorem Inv.check {α : Type} {U : α → Prop} {z : α → Nat} {g : α → Boolf} {i : Nat} {st : Option (List α)} (h : Inv U z g (i + 1) st) {new : List α}
    (hn : ∀ c, c ∈ new ↔ InState U st c ∧ (z c).testBit i = false) (hne : new ≠ []) {member : α → Except Err Boolf} (hm : ∀ c, U c → member c = .ok (g c)) :
    (∃ c, repLoop member new [] = .ok (some (g c)) ∧ Least U z 0 c) ∨ (repLoop member new [] = .ok none ∧ Inv U z g i (some new)) := by
  have hL := h.take hn hne
  rcases repLoop_spec (g := g) (fun c hc => hm c ((hL c).1 hc).1) hne with ⟨r, h1, h2⟩ | ⟨h1, c, hc, d, hd, hcd⟩
  · obtain ⟨d, hd⟩ := List.exists_mem_of_ne_nil _ hne
    obtain ⟨c, hc⟩ := least_exists (U := U) z ⟨d, ((hL d).1 hd).1⟩
    refine .inl ⟨c, ?_, hc⟩
    rw [h1, h2 c ((hL c).2 (hc.of_zero i))]
  · exact .inr ⟨h1, fun c => hL c, c, d, hc, hd, hcd⟩

/-! ### Zhegalkin indices -/

/-- the coefficients of the algebraic normal form -/
def coef (f : Boolf) (n : Nat) (j : Nat) : Bool := subXor n (fun i => f.eval i.testBit) j

theorem eval_coef {f : Boolf} {n j : Nat} (hj : j < 2 ^ n) : subXor n (coef f n) j = f.eval j.testBit := subXor_subXor n _ hj

/-- the Zhegalkin index -/
def Z (f : Boolf) (n : Nat) : Nat := valB ((List.range (2 ^ n)).map (coef f n))

theorem testBit_Z {f : Boolf} {n j : Nat} (hj : j < 2 ^ n) : (Z f n).testBit j = coef f n j := by
  unfold Z
  rw [testBit_valB_map, List.getElem?_range hj]
  rfl

theorem Z_lt (f : Boolf) (n : Nat) : Z f n < 2 ^ 2 ^ n := by
  have := valB_lt ((List.range (2 ^ n)).map (coef f n))
  rwa [List.length_map, List.length_range] at this

theorem coef_extend {f : Boolf} (hf : Sound f) {n j : Nat} (hn : f.adicity ≤ n) (hj : j < 2 ^ n) :
    coef f n j = if j < 2 ^ f.adicity then coef f f.adicity j else false := by
  have h : ∀ i < 2 ^ n, f.eval i.testBit = subXor n (fun i => if i < 2 ^ f.adicity then coef f f.adicity i else false) i := by
    intro i hi
    rw [subXor_extend hn (fun k hk => if_neg (by omega)), ← eval_mod hf le_rfl i, ← eval_coef (Nat.mod_lt _ (Nat.two_pow_pos _)), subXor_mod]
    exact subXor_congr (fun k hk => by rw [if_pos hk]) _
  unfold coef
  rw [subXor_congr h, subXor_subXor n _ hj]
  rfl

theorem zhe_Z {f : Boolf} (hf : Sound f) {n : Nat} (hn : f.adicity ≤ n) : f.zhe = .ok (Z f n) := by
  obtain ⟨z, z1, z2, z3⟩ := zhe_spec hf
  rw [z1]
  congr 1
  apply Nat.eq_of_testBit_eq
  intro j
  by_cases hj : j < 2 ^ n
  · rw [testBit_Z hj, coef_extend hf hn hj]
    by_cases hj' : j < 2 ^ f.adicity
    · rw [if_pos hj', z3 j hj']; rfl
    · rw [if_neg hj', testBit_of_lt z2 (by omega)]
  · have := Nat.pow_le_pow_right (n := 2) (by omega) hn
    rw [testBit_of_lt z2 (by omega), testBit_of_lt (Z_lt f n) (by omega)]

theorem Z_inj {f g : Boolf} (hf : Canon f) (hg : Canon g) {n : Nat} (hfn : f.adicity ≤ n) (hgn : g.adicity ≤ n) (h : Z f n = Z g n) : f = g := by
  have hc : ∀ j < 2 ^ n, coef f n j = coef g n j := fun j hj => by rw [← testBit_Z hj, h, testBit_Z hj]
  apply hf.ext_key hg
  intro key
  rw [getItem_eq hf.toSound, getItem_eq hg.toSound, ← eval_mod hf.toSound hfn, ← eval_mod hg.toSound hgn,
    ← eval_coef (Nat.mod_lt _ (Nat.two_pow_pos _)), ← eval_coef (Nat.mod_lt _ (Nat.two_pow_pos _)), subXor_congr hc]

/-! ### members -/

theorem pairMember_spec {f : Boolf} (hf : Good f) (hc : f.isConstant = false) (m k : Nat) :
    ∃ g p, f.pairMember m k = .ok g ∧ intToPerm k = .ok p ∧ Constructed p ∧ p.perilen = none ∧ Lits f (fun x => slit (m.testBit (p.get x)) (p.get x : Nat)) g := by
  obtain ⟨p, p1, p2, p3, _⟩ := C15_rank_of_int k
  obtain ⟨b, b1, b2, _⟩ := C26_intval_only m
  obtain ⟨σ, σ1, σ2, σ3, _⟩ := SG.C31_valneg b p p2 p3
  obtain ⟨g, g1, g2, g3⟩ := apply_value hf (w := σ.value) (fun x y => value_inj σ2) hc
  have hb1 : BV.mk { intval := some (m : Int) } = .ok b := b1
  have hσ : SG.new { pair := some ((m : Int), (k : Int)) } = .ok σ := by
    rw [← σ1]
    simp [SG.new, SG.convNeg, SG.convPerm, SG.usePair, SG.useNegIndex, SG.usePermIndex, bind, Except.bind, Except.map, hb1, p1]
  refine ⟨g, p, ?_, p1, p2, p3, g2, fun a => ?_⟩
  · unfold Boolf.pairMember
    rw [hσ]
    simp only [bind, Except.bind]
    rw [(applySigperm_spec hf σ2).2 hc, g1]
  · rw [g3]
    simp only [σ3, b2]
    rfl

theorem lits_adicity {f g : Boolf} {r : Nat → Nat} {s : Nat → Bool} (h : Lits f (fun x => slit (s x) (r x : Nat)) g) {n : Nat} (hr : ∀ x ∈ f.atomvals, r x < n) :
    g.adicity ≤ n := by
  rw [h.1.adic]
  intro y hy
  obtain ⟨a, ha⟩ := (h.1.mem_iff y).1 hy
  by_contra hc
  apply ha
  rw [h.2, h.2]
  apply Boolf.eval_congr
  intro x hx
  have := hr x hx
  rw [lit_slit, lit_slit]
  unfold upd
  rw [if_neg (by omega), if_neg (by omega)]

/-- A function that is not constant differs from the one with a negated argument. -/
theorem negation_differs {f : Boolf} (hf : Canon f) (hc : f.isConstant = false) : ∃ x ∈ f.atomvals, ∃ a, f.eval a ≠ f.eval fun y => a y ^^ decide (y = x) := by
  obtain ⟨x, hx⟩ := List.exists_mem_of_ne_nil _ (atoms_of_not_const hf hc)
  obtain ⟨a, ha⟩ := (hf.mem_iff x).1 hx
  refine ⟨x, hx, upd a x true, fun h => ha ?_⟩
  rw [h]
  congr 1
  funext y
  unfold upd
  by_cases hy : y = x
  · simp [hy]
  · simp [hy]

/-! ### coefficients of the negated functions -/

/-- no binary digit 1 in common -/
def disj (p L : Nat) : Bool := decide (p &&& L = 0)

theorem disj_iff {p L : Nat} : disj p L = true ↔ ∀ k, p.testBit k = true → L.testBit k = false := by
  unfold disj
  rw [decide_eq_true_eq]
  constructor
  · intro h k hk
    have := congrArg (fun x => x.testBit k) h
    simp only [Nat.testBit_and, Nat.zero_testBit, hk, Bool.true_and] at this
    exact this
  · intro h
    apply Nat.eq_of_testBit_eq
    intro k
    rw [Nat.testBit_and, Nat.zero_testBit]
    cases hp : p.testBit k with
    | false => rfl
    | true => rw [h k hp]; rfl

theorem disj_low_high {n p L : Nat} (hp : p < 2 ^ n) (hL : L < 2 ^ n) : disj p (2 ^ n + L) = disj p L := by
  rw [Bool.eq_iff_iff, disj_iff, disj_iff]
  apply forall_congr'
  intro k
  rw [testBit_high hL]
  by_cases hk : k = n
  · subst hk; rw [Nat.testBit_lt_two_pow hp]; simp
  · rw [if_neg hk]

theorem disj_high_low {n p L : Nat} (hp : p < 2 ^ n) (hL : L < 2 ^ n) : disj (2 ^ n + p) L = disj p L := by
  rw [Bool.eq_iff_iff, disj_iff, disj_iff]
  constructor
  · intro h k hk
    apply h
    rw [testBit_high hp]
    split
    · rfl
    · exact hk
  · intro h k hk
    rw [testBit_high hp] at hk
    split at hk
    · rename_i e; rw [e]; exact Nat.testBit_lt_two_pow hL
    · exact h k hk

theorem disj_high_high {n p L : Nat} (hp : p < 2 ^ n) (hL : L < 2 ^ n) : disj (2 ^ n + p) (2 ^ n + L) = false := by
  rw [Bool.eq_false_iff, ne_eq, disj_iff]
  intro h
  have := h n (by rw [testBit_high hp, if_pos rfl])
  rw [testBit_high hL, if_pos rfl] at this
  cases this

/-- the sum of the coefficients `a (L + p)` for the `p` with digits only where `c` has them and `L` has not -/
def nsum (n c : Nat) (a : Nat → Bool) (L : Nat) : Bool := xorSum ((List.range (2 ^ n)).map fun p => a (L + p) && (sub p c && disj p L))

theorem xorSum_congr {α : Type} {l : List α} {u w : α → Bool} (h : ∀ i ∈ l, u i = w i) : xorSum (l.map u) = xorSum (l.map w) := by
  rw [List.map_congr_left h]

theorem range_double (n : Nat) : List.range (2 ^ (n + 1)) = List.range (2 ^ n) ++ (List.range (2 ^ n)).map (2 ^ n + ·) := by
  rw [show 2 ^ (n + 1) = 2 ^ n + 2 ^ n by rw [Nat.pow_succ]; omega, List.range_add]

theorem nsum_low {n c L : Nat} (a : Nat → Bool) (hL : L < 2 ^ n) :
    nsum (n + 1) c a L = (nsum n (c % 2 ^ n) a L ^^ (c.testBit n && nsum n (c % 2 ^ n) (fun i => a (2 ^ n + i)) L)) := by
  unfold nsum
  rw [range_double, List.map_append, xorSum_append, List.map_map, ← xorSum_and_left]
  congr 1
  · apply xorSum_congr
    intro p hp
    rw [sub_low (List.mem_range.1 hp)]
  · apply xorSum_congr
    intro p hp
    have hp := List.mem_range.1 hp
    simp only [Function.comp]
    rw [sub_high hp, disj_high_low hp hL, show L + (2 ^ n + p) = 2 ^ n + (L + p) by omega]
    cases c.testBit n <;> simp

theorem nsum_high {n c L : Nat} (a : Nat → Bool) (hL : L < 2 ^ n) :
    nsum (n + 1) c a (2 ^ n + L) = nsum n (c % 2 ^ n) (fun i => a (2 ^ n + i)) L := by
  unfold nsum
  rw [range_double, List.map_append, xorSum_append, List.map_map, xorSum_false (p := _ ∘ _), Bool.xor_false]
  · apply xorSum_congr
    intro p hp
    have hp := List.mem_range.1 hp
    rw [sub_low hp, disj_low_high hp hL, Nat.add_assoc]
  · intro p hp
    simp only [Function.comp]
    rw [disj_high_high (List.mem_range.1 hp) hL]
    simp

theorem subXor_and_left (n : Nat) (b : Bool) (v : Nat → Bool) (j : Nat) : subXor n (fun i => b && v i) j = (b && subXor n v j) := by
  cases b with
  | true => simp
  | false => simp only [Bool.false_and]; exact subXor_false n j

/-- The coefficients after a negation of arguments. -/
theorem subXor_nsum (n c : Nat) (a : Nat → Bool) (x : Nat) : subXor n (nsum n c a) x = subXor n a (x ^^^ c) := by
  induction n generalizing c a x with
  | zero =>
    rw [subXor_zero, subXor_zero]
    unfold nsum
    have h1 : sub 0 c = true := sub_iff.2 (by simp)
    have h2 : disj 0 0 = true := by decide
    simp [xorSum, h1, h2]
  | succ n ih =>
    rw [subXor_succ, subXor_succ, subXor_congr (fun i hi => nsum_low a hi), subXor_congr (fun i hi => nsum_high a hi), subXor_xor, subXor_and_left,
      ih, ih, Nat.xor_mod_two_pow, Nat.testBit_xor]
    cases c.testBit n <;> cases x.testBit n <;> simp

theorem coef_negated {f g : Boolf} {n c : Nat} (hc : c < 2 ^ n) (h : ∀ j : Nat, g.eval j.testBit = f.eval (j ^^^ c).testBit) {L : Nat} (hL : L < 2 ^ n) :
    coef g n L = nsum n c (coef f n) L := by
  unfold coef
  rw [subXor_congr (w := subXor n (nsum n c (coef f n)))]
  · exact subXor_subXor n _ hL
  · intro i hi
    rw [h, subXor_nsum, eval_coef (Nat.xor_lt_two_pow hi hc)]

/-! ### the columns -/

theorem disj_filter (L n : Nat) : (List.range (2 ^ n)).filter (disj · L) = (List.range (2 ^ (freeAtoms L n).length)).map (rowEntry (freeAtoms L n)) := by
  have hA := freeAtoms_asc L n
  have hnd : (freeAtoms L n).Nodup := hA.imp (fun h => Nat.ne_of_lt h)
  apply eq_of_mem_iff_of_lt (List.Pairwise.filter _ List.pairwise_lt_range)
  · rw [List.pairwise_map]
    apply List.Pairwise.imp_of_mem _ List.pairwise_lt_range
    intro i j _ hj hij
    exact rowEntry_lt hA (List.mem_range.1 hj) hij
  · intro p
    rw [List.mem_filter, List.mem_range, List.mem_map]
    constructor
    · rintro ⟨hp, hd⟩
      rw [disj_iff] at hd
      refine ⟨comp (freeAtoms L n) p, List.mem_range.2 (comp_lt _ _), ?_⟩
      apply Nat.eq_of_testBit_eq
      intro k
      by_cases hk : k ∈ freeAtoms L n
      · obtain ⟨i, hi⟩ := List.mem_iff_getElem?.1 hk
        rw [rowEntry_testBit_iff hnd hi, testBit_comp hi]
      · rw [rowEntry_not_mem hnd hk]
        symm
        rw [Bool.eq_false_iff]
        intro hpk
        refine hk (mem_freeAtoms.2 ⟨?_, hd k hpk⟩)
        by_contra hkn
        rw [testBit_of_lt hp (by omega)] at hpk
        cases hpk
    · rintro ⟨j, _, rfl⟩
      refine ⟨rowEntry_bound hnd (fun x hx => (mem_freeAtoms.1 hx).1) j, disj_iff.2 fun k hk => ?_⟩
      obtain ⟨i, i1, _⟩ := (testBit_rowEntry hnd _ _).1 hk
      exact (mem_freeAtoms.1 (List.mem_of_getElem? i1)).2

theorem sub_rowEntry {A : List Nat} (hA : A.Nodup) {i : Nat} (hi : i < 2 ^ A.length) (c : Nat) : sub (rowEntry A i) c = sub i (comp A c) := by
  rw [Bool.eq_iff_iff, sub_iff, sub_iff]
  constructor
  · intro h k hk
    have hkA : k < A.length := by
      by_contra hc
      rw [testBit_of_lt hi (by omega)] at hk
      cases hk
    rw [testBit_comp (List.getElem?_eq_getElem hkA)]
    apply h
    rw [rowEntry_testBit_iff hA (List.getElem?_eq_getElem hkA)]
    exact hk
  · intro h x hx
    obtain ⟨k, k1, k2⟩ := (testBit_rowEntry hA _ _).1 hx
    have := h k k2
    rwa [testBit_comp k1] at this

/-- The sum as entry of a Zhegalkin twin. -/
theorem nsum_twin (n c : Nat) (a : Nat → Bool) (L : Nat) :
    nsum n c a L = subXor (freeAtoms L n).length (fun i => a (L + rowEntry (freeAtoms L n) i)) (comp (freeAtoms L n) c) := by
  have hnd : (freeAtoms L n).Nodup := (freeAtoms_asc L n).imp (fun h => Nat.ne_of_lt h)
  unfold nsum subXor
  rw [xorSum_congr (w := fun p => disj p L && (a (L + p) && sub p c)) (fun p _ => by cases disj p L <;> simp), ← xorSum_filter, disj_filter, List.map_map]
  apply xorSum_congr
  intro i hi
  simp only [Function.comp]
  rw [sub_rowEntry hnd (List.mem_range.1 hi)]

/-- The places of a column are those of the digits that the left index has not. -/
theorem intToSierpinskiRow_spec (order : List Nat → List Nat) {n L : Nat} (hL : L < 2 ^ n) (ho : (order (freeAtoms L n)).length = (freeAtoms L n).length) :
    intToSierpinskiRow order (2 ^ n - (L + 1)) = .ok ((List.range (2 ^ (freeAtoms L n).length)).map (rowEntry (order (freeAtoms L n)))) := by
  have hR : (2 ^ n - (L + 1)) < 2 ^ n := by omega
  have hA : (List.range n).filter (2 ^ n - (L + 1)).testBit = freeAtoms L n := by
    unfold freeAtoms
    apply List.filter_congr
    intro k hk
    rw [Nat.testBit_two_pow_sub_succ hL, decide_eq_true (List.mem_range.1 hk), Bool.true_and]
  unfold intToSierpinskiRow
  by_cases h0 : 2 ^ n - (L + 1) = 0
  · have hnil : freeAtoms L n = [] := by rw [← hA, h0]; simp
    rw [if_pos h0]
    rw [hnil] at ho ⊢
    rw [List.length_nil, List.length_eq_zero_iff] at ho
    rw [ho]
    rfl
  · rw [if_neg h0]
    obtain ⟨b, b1, b2, _⟩ := C26_intval_only (2 ^ n - (L + 1))
    rw [b1]
    simp only [bind, Except.bind]
    have : b.exposet = freeAtoms L n := by
      rw [← hA, ← exposet_range hR, ← b2]
      apply eq_of_mem_iff_of_lt (exposet_pairwise b) (C19_exposet_sorted _)
      intro x
      rw [C19_exposet_of_int, ← (C26_attributes b).2.2.2.1 x]
      unfold Binv.hasIndex
      rw [List.contains_iff_mem]
    rw [this, sierpinskiRow_eq, ho]

end Verif.BF
