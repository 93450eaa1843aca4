import Verif.Walsh.Props2

/-! # C35 (group operations) and C36 (degree, equality, matrix, vector and sequence) of Walsh permutations -/

namespace Verif.W
open Verif.Py Verif.BV Verif.P
open Verif.A hiding Mat
open Verif.SG (Mat)

/-! ## products -/

/-- **C35.** The product of Walsh permutations is their composition. -/
theorem C35_mul (a b : Walsh) (ha : Constructed a) (hb : Constructed b) :
    ∃ c, a.mul b = .ok c ∧ Constructed c ∧ ∀ x, c.get x = (do a.get (← b.get x)) := by
  obtain ⟨d, A, hA⟩ := ha.valid
  obtain ⟨e, B, hB⟩ := hb.valid
  obtain ⟨c, d', C, h1, h2, h3⟩ := mul_spec hA hB
  refine ⟨c, h1, h2.constructed, fun x => ?_⟩
  rw [h2.get, h3, hB.get]
  exact (hA.get _).symm

/-- The product with a `Perm` is the composition.  Like for two `Perm` objects both must be finite or periodic (a neutral factor is both). -/
theorem C35_mul_perm (a : Walsh) (ha : Constructed a) (p : Perm) (hp : P.Constructed p) :
    (a.neutral = true ∨ p.neutral = true ∨ p.perilen.isSome →
      ∃ q, a.mulPerm p = .ok q ∧ P.Constructed q ∧ ∀ x, a.get (p.get x) = .ok (q.get x)) ∧
    (¬ (a.neutral = true ∨ p.neutral = true ∨ p.perilen.isSome) → a.mulPerm p = .error .otherPerilenMismatch) := by
  obtain ⟨d, A, hA⟩ := ha.valid
  obtain ⟨q, q1, q2, q3, q4, q5, _⟩ := hA.asPerm
  have hk : SameKind q p ↔ (a.neutral = true ∨ p.neutral = true ∨ p.perilen.isSome) := by
    unfold SameKind
    rw [q5, q4, hA.1.neut]
    by_cases hd : d = 0
    · simp [hd]
    · simp only [hd, decide_false, if_false]
      cases p.perilen <;> simp
  have := C06_mul q p q2 hp
  rw [hk] at this
  unfold Walsh.mulPerm
  rw [q1]
  simp only [bind, Except.bind]
  refine ⟨fun h => ?_, this.2⟩
  obtain ⟨c, c1, c2, c3⟩ := this.1 h
  exact ⟨c, c1, c2, fun x => by rw [hA.get, c3, q3]⟩

/-! ## inverse -/

theorem neutral_of_act {w : Walsh} {d : Nat} {B : Nat → Nat → Bool} (h : Valid w d B) (hid : ∀ x, act d B x = x) : w = neutralWalsh := by
  apply h.1.zero
  exact (h.unique valid_neutral (by funext x; rw [hid, act_one])).1

/-- **C35.** The inverse is the inverse function, and the products with it are neutral. -/
theorem C35_inverse (a : Walsh) (ha : Constructed a) :
    ∃ v, a.inverse = .ok v ∧ Constructed v ∧ (∀ x y, v.get x = .ok y ↔ a.get y = .ok x) ∧
      a.mul v = .ok neutralWalsh ∧ v.mul a = .ok neutralWalsh := by
  obtain ⟨d, A, hA⟩ := ha.valid
  obtain ⟨v, e, C, h1, h2, h3, h4⟩ := inverse_spec hA
  refine ⟨v, h1, h2.constructed, fun x y => ?_, ?_, ?_⟩
  · rw [h2.get, hA.get]
    constructor
    · intro h; cases h; rw [h3]
    · intro h; cases h; rw [h4]
  · obtain ⟨c, d', C', c1, c2, c3⟩ := mul_spec hA h2
    rw [c1, neutral_of_act c2 (fun x => by rw [c3, h3])]
  · obtain ⟨c, d', C', c1, c2, c3⟩ := mul_spec h2 hA
    rw [c1, neutral_of_act c2 (fun x => by rw [c3, h4])]

/-! ## equality -/

theorem Valid.eq_iff {w v : Walsh} {d e : Nat} {B C : Nat → Nat → Bool} (h : Valid w d B) (h' : Valid v e C) :
    w.eq v = true ↔ act d B = act e C := by
  unfold Walsh.eq
  rw [h.1.neut, h'.1.neut]
  by_cases hn : d = 0 ∧ e = 0
  · obtain ⟨rfl, rfl⟩ := hn
    simp only [decide_true, Bool.and_self, if_true, true_iff]
    funext x
    unfold act
    simp
  · rw [if_neg (by simpa using fun h => fun h' => hn ⟨h, h'⟩)]
    constructor
    · intro heq
      unfold Vec.eq at heq
      rw [h.1.vec, h'.1.vec, Dict.eq_iff (nodup_vecD _ _) (nodup_vecD _ _)] at heq
      have hk : ∀ k, act d B (2 ^ k) = act e C (2 ^ k) := by
        intro k
        have h1 := get_vecD d (fun k => act d B (2 ^ k)) k
        have h2 := get_vecD e (fun k => act e C (2 ^ k)) k
        unfold Vec.get at h1 h2
        rw [heq k] at h1
        rw [h1] at h2
        have e1 : (if k < d then act d B (2 ^ k) else 2 ^ k) = act d B (2 ^ k) := by
          split
          · rfl
          · rw [act_two_pow_ge _ (by omega)]
        have e2 : (if k < e then act e C (2 ^ k) else 2 ^ k) = act e C (2 ^ k) := by
          split
          · rfl
          · rw [act_two_pow_ge _ (by omega)]
        rw [← e1, ← e2]
        exact h2
      have h1 : Outside (max d e) B := h.1.outside.mono (by omega)
      have h2 : Outside (max d e) C := h'.1.outside.mono (by omega)
      rw [h.act_eq h1, h'.act_eq h2] at hk ⊢
      exact act_congr (act_ext fun k _ => hk k)
    · intro heq
      obtain ⟨rfl, rfl⟩ := h.unique h' heq
      unfold Vec.eq
      rw [h.1.vec, h'.1.vec, Dict.eq_iff (nodup_vecD _ _) (nodup_vecD _ _)]
      intro k; rfl

/-- **C36.** Two Walsh permutations are equal if and only if they are the same function. -/
theorem C36_eq_extensional (w v : Walsh) (hw : Constructed w) (hv : Constructed v) : w.eq v = true ↔ ∀ x, w.get x = v.get x := by
  obtain ⟨d, B, hB⟩ := hw.valid
  obtain ⟨e, C, hC⟩ := hv.valid
  rw [hB.eq_iff hC]
  constructor
  · intro h x; rw [hB.get, hC.get, h]
  · intro h
    funext x
    have := h x
    rw [hB.get, hC.get] at this
    exact Except.ok.inj this

/-- **C36.** A Walsh permutation and a `Perm` are equal if and only if they are the same function. -/
theorem C36_eq_perm (w : Walsh) (hw : Constructed w) (p : Perm) (hp : P.Constructed p) :
    ∃ b, w.eqPerm p = .ok b ∧ (b = true ↔ ∀ x, w.get x = .ok (p.get x)) := by
  obtain ⟨d, B, hB⟩ := hw.valid
  obtain ⟨q, q1, q2, q3, q4, q5, _⟩ := hB.asPerm
  have hq : q.eq p = true ↔ ∀ x, w.get x = .ok (p.get x) := by
    rw [C05_eq_extensional q p q2 hp]
    constructor
    · intro h x; rw [hB.get, ← h, q3]
    · intro h x
      have := h x
      rw [hB.get, ← q3] at this
      exact Except.ok.inj this
  unfold Walsh.eqPerm
  by_cases hn : w.neutral && p.neutral
  · rw [if_pos hn]
    refine ⟨true, rfl, by
      simp only [true_iff]
      rw [← hq, C05_eq_extensional q p q2 hp]
      simp only [Bool.and_eq_true] at hn
      have h1 : q.neutral = true := by rw [q5, ← hB.1.neut, hn.1]
      intro x
      rw [(C05_neutral_iff q q2).1 h1, (C05_neutral_iff p hp).1 hn.2]⟩
  · rw [if_neg hn, q1]
    exact ⟨_, rfl, hq⟩

/-! ## transpose -/

theorem bsum_eq_count (n x y : Nat) : bsum n (fun k => x.testBit k && y.testBit k) =
    decide ((List.range n).countP (fun k => x.testBit k && y.testBit k) % 2 = 1) := bsum_count n _

theorem act_adjoint (n : Nat) (B : Nat → Nat → Bool) (x y : Nat) :
    bsum n (fun i => (act n B x).testBit i && y.testBit i) = bsum n (fun k => x.testBit k && (act n (tr B) y).testBit k) := by
  have h1 : bsum n (fun i => (act n B x).testBit i && y.testBit i) = bsum n (fun i => bsum n fun k => B i k && (x.testBit k && y.testBit i)) := by
    apply bsum_congr
    intro i hi
    rw [testBit_act, if_pos hi, Bool.and_comm, ← bsum_and]
    apply bsum_congr
    intro k _
    cases B i k <;> cases x.testBit k <;> cases y.testBit i <;> rfl
  have h2 : bsum n (fun k => x.testBit k && (act n (tr B) y).testBit k) = bsum n (fun k => bsum n fun i => B i k && (x.testBit k && y.testBit i)) := by
    apply bsum_congr
    intro k hk
    rw [testBit_act, if_pos hk, ← bsum_and]
    apply bsum_congr
    intro i _
    unfold tr
    cases B i k <;> cases x.testBit k <;> cases y.testBit i <;> rfl
  rw [h1, h2, bsum_comm]

/-- **C35.** The matrix of the transpose is the transposed matrix, the transpose of the transpose is the permutation itself, and the common
digits of `w[x]` and `y` are as many as those of `x` and `w.transpose[y]`, modulo 2. -/
theorem C35_transpose (w : Walsh) (hw : Constructed w) :
    ∃ v u, w.transpose = .ok v ∧ Constructed v ∧ v.degree = w.degree ∧
      (∀ i < w.degree, ∀ j < w.degree, v.matrixMinimal.get i j = w.matrixMinimal.get j i) ∧ v.transpose = .ok u ∧ u.eq w = true ∧
      ∀ n, w.degree ≤ n → ∀ x y a b, w.get x = .ok a → v.get y = .ok b →
        (List.range n).countP (fun k => a.testBit k && y.testBit k) % 2 = (List.range n).countP (fun k => x.testBit k && b.testBit k) % 2 := by
  obtain ⟨d, B, hB⟩ := hw.valid
  obtain ⟨v, v1, v2⟩ := transpose_spec hB
  obtain ⟨u, u1, u2⟩ := transpose_spec v2
  refine ⟨v, u, v1, v2.constructed, by rw [v2.1.deg, hB.1.deg], ?_, u1, ?_, ?_⟩
  · rw [hB.1.deg]
    intro i hi j hj
    rw [v2.1.entry i hi j hj, hB.1.entry j hj i hi]
    rfl
  · rw [u2.eq_iff hB]
    rfl
  · rw [hB.1.deg]
    intro n hn x y a b ha hb
    rw [hB.get] at ha
    rw [v2.get] at hb
    cases ha; cases hb
    have := act_adjoint n B x y
    rw [← hB.act_eq (hB.1.outside.mono hn), ← v2.act_eq (v2.1.outside.mono hn), bsum_count, bsum_count] at this
    have := decide_eq_decide.1 this
    omega

/-- **C35.** The transpose of a product is the product of the transposes in reverse order. -/
theorem C35_transpose_mul (a b : Walsh) (ha : Constructed a) (hb : Constructed b) :
    ∃ c ct at' bt d, a.mul b = .ok c ∧ c.transpose = .ok ct ∧ a.transpose = .ok at' ∧ b.transpose = .ok bt ∧ bt.mul at' = .ok d ∧
      ct.eq d = true := by
  obtain ⟨d, A, hA⟩ := ha.valid
  obtain ⟨e, B, hB⟩ := hb.valid
  obtain ⟨c, dc, C, c1, c2, c3⟩ := mul_spec hA hB
  obtain ⟨ct, t1, t2⟩ := transpose_spec c2
  obtain ⟨a', a1, a2⟩ := transpose_spec hA
  obtain ⟨b', b1, b2⟩ := transpose_spec hB
  obtain ⟨f, df, F, f1, f2, f3⟩ := mul_spec b2 a2
  refine ⟨c, ct, a', b', f, c1, t1, a1, b1, f1, ?_⟩
  rw [t2.eq_iff f2]
  have hn : ∃ n, d ≤ n ∧ e ≤ n ∧ dc ≤ n := ⟨d + e + dc, by omega, by omega, by omega⟩
  obtain ⟨n, n1, n2, n3⟩ := hn
  have e1 : act dc (tr C) = act n (tr C) := t2.act_eq (t2.1.outside.mono n3)
  have hC : ∀ i < n, ∀ j < n, C i j = mulB n A B i j := by
    apply act_ext
    intro k _
    rw [← c2.act_eq (c2.1.outside.mono n3), c3, act_mulB, hA.act_eq (hA.1.outside.mono n1), hB.act_eq (hB.1.outside.mono n2)]
  have hT : ∀ i < n, ∀ j < n, tr C i j = mulB n (tr B) (tr A) i j := by
    intro i hi j hj
    unfold tr
    rw [hC j hj i hi]
    unfold mulB
    apply bsum_congr
    intro k _
    rw [Bool.and_comm]
  funext x
  rw [e1, act_congr hT, act_mulB, f3, b2.act_eq (b2.1.outside.mono n2), a2.act_eq (a2.1.outside.mono n1)]

/-- **C35.** The determinant is that of the minimal matrix, and it is odd. -/
theorem C35_determinant (w : Walsh) (hw : Constructed w) :
    w.determinant = .ok (Matrix.of fun i j : Fin w.degree => w.matrixMinimal.get i j).det ∧
      (Matrix.of fun i j : Fin w.degree => w.matrixMinimal.get i j).det % 2 = 1 := by
  obtain ⟨d, B, hB⟩ := hw.valid
  have hd := hB.1.deg
  subst hd
  exact ⟨determinant_eq hB.1, (isUnit_iff_odd hB.1).1 hB.2⟩

/-! ## powers -/

theorem mulLoop_spec {f r : Walsh} {d e : Nat} {F R : Nat → Nat → Bool} (hf : Valid f d F) (n : Nat) (hr : Valid r e R) :
    ∃ c k C, Walsh.mulLoop f n r = .ok c ∧ Valid c k C ∧ ∀ x, act k C x = act e R ((act d F)^[n] x) := by
  induction n generalizing r e R with
  | zero => exact ⟨r, e, R, rfl, hr, fun x => rfl⟩
  | succ n ih =>
    obtain ⟨c, k, C, h1, h2, h3⟩ := mul_spec hr hf
    obtain ⟨c', k', C', h4, h5, h6⟩ := ih h2
    refine ⟨c', k', C', ?_, h5, fun x => ?_⟩
    · rw [Walsh.mulLoop, h1]; exact h4
    · rw [h6, h3, Function.iterate_succ_apply']

/-- **C35.** `w ** n` is the power in the group of all bijections of the natural numbers, for every integer `n`. -/
theorem C35_pow (w : Walsh) (hw : Constructed w) (e : Equiv.Perm Nat) (he : ∀ x, w.get x = .ok (e x)) (n : Int) :
    ∃ v, w.pow n = .ok v ∧ Constructed v ∧ ∀ x, v.get x = .ok ((e ^ n) x) := by
  obtain ⟨d, B, hB⟩ := hw.valid
  have he' : act d B = ⇑e := by
    funext x
    have := he x
    rw [hB.get] at this
    exact Except.ok.inj this
  obtain ⟨v, dv, V, v1, v2, v3, v4⟩ := inverse_spec hB
  have hv : act dv V = ⇑(e⁻¹) := by
    funext x
    rw [Equiv.Perm.eq_inv_iff_eq, ← he', v3]
  unfold Walsh.pow
  split
  · rename_i h; subst h
    exact ⟨_, rfl, valid_neutral.constructed, fun x => by rw [valid_neutral.get, act_one]; simp⟩
  · split
    · rename_i h; subst h; exact ⟨_, rfl, hw, fun x => by simp [he]⟩
    · split
      · rename_i h; subst h; exact ⟨_, v1, v2.constructed, fun x => by rw [v2.get, hv]; simp⟩
      · split
        · rename_i h
          obtain ⟨c, k, C, c1, c2, c3⟩ := mulLoop_spec hB (n - 1).toNat hB
          refine ⟨c, c1, c2.constructed, fun x => ?_⟩
          rw [c2.get, c3, ← Function.iterate_succ_apply' (act d B), he', Equiv.Perm.iterate_eq_pow, ← zpow_natCast]
          congr 3
          omega
        · rename_i h0 h1 h2 h3
          rw [v1]
          obtain ⟨c, k, C, c1, c2, c3⟩ := mulLoop_spec v2 (-n - 1).toNat v2
          refine ⟨c, c1, c2.constructed, fun x => ?_⟩
          rw [c2.get, c3, ← Function.iterate_succ_apply' (act dv V), hv, Equiv.Perm.iterate_eq_pow, ← zpow_natCast, inv_zpow']
          congr 3
          omega

/-! ## degree -/

theorem add_two_pow (k : Nat) : ∀ z : Nat, z.testBit k = false → z + 2 ^ k = z ^^^ 2 ^ k := by
  induction k with
  | zero =>
    intro z h
    have h0 : z % 2 = 0 := by simpa [Nat.testBit_zero] using h
    apply Nat.eq_of_testBit_eq
    intro j
    cases j with
    | zero => simp [Nat.testBit_zero]
    | succ j =>
      rw [Nat.testBit_succ, Nat.testBit_succ, show (z + 2 ^ 0) / 2 = z / 2 by omega]
      congr 1
      rw [Nat.xor_div_two]
      simp
  | succ k ih =>
    intro z h
    apply Nat.eq_of_testBit_eq
    intro j
    cases j with
    | zero =>
      simp only [Nat.testBit_zero, Nat.pow_succ]
      have : (z + 2 ^ k * 2) % 2 = z % 2 := by omega
      rw [this]
      simp
    | succ j =>
      rw [Nat.testBit_succ, Nat.testBit_succ, Nat.xor_div_two, Nat.pow_succ, show (z + 2 ^ k * 2) / 2 = z / 2 + 2 ^ k by omega,
        show 2 ^ k * 2 / 2 = 2 ^ k by omega, ih (z / 2) (by rw [Nat.testBit_div_two]; exact h)]

theorem testBit_of_add {y k : Nat} (h : y ^^^ 2 ^ k = y + 2 ^ k) : y.testBit k = false := by
  cases hb : y.testBit k with
  | false => rfl
  | true =>
    have hz : (y ^^^ 2 ^ k).testBit k = false := by rw [Nat.testBit_xor, hb, Nat.testBit_two_pow_self]; rfl
    have := add_two_pow k _ hz
    have e : y ^^^ 2 ^ k ^^^ 2 ^ k = y := by simp
    rw [e] at this
    have := Nat.two_pow_pos k
    omega

/-- **C36.** The degree is minimal: `2 ** n` is a period if and only if the degree is at most `n`.  It is never 1, and it is 0 exactly for the
identity. -/
theorem C36_degree (w : Walsh) (hw : Constructed w) (f : Nat → Nat) (hf : ∀ x, w.get x = .ok (f x)) :
    (∀ n, w.degree ≤ n ↔ ∀ x, f (x + 2 ^ n) = f x + 2 ^ n) ∧ w.degree ≠ 1 ∧ (w.neutral = true ↔ ∀ x, f x = x) ∧
    (w.neutral = true ↔ w.degree = 0) ∧ w.perilen = if w.degree = 0 then none else some (2 ^ w.degree) := by
  obtain ⟨f', hf', _, hx, hdiv, hper⟩ := C34_linear w hw
  have : f' = f := by
    funext x
    have := hf x
    rw [hf'] at this
    exact Except.ok.inj this
  subst this
  obtain ⟨d, B, hB⟩ := hw.valid
  have hd := hB.1.deg
  subst hd
  have hact : act w.degree B = f' := by
    funext x
    have := hf x
    rw [hB.get] at this
    exact Except.ok.inj this
  have iter : ∀ n, (∀ x, f' (x + 2 ^ n) = f' x + 2 ^ n) → ∀ j x, f' (x + j * 2 ^ n) = f' x + j * 2 ^ n := by
    intro n h j
    induction j with
    | zero => simp
    | succ j ih =>
      intro x
      rw [Nat.succ_mul, ← Nat.add_assoc, h, ih, Nat.add_assoc]
  have up : ∀ m n, m ≤ n → ∃ j, 2 ^ n = j * 2 ^ m := by
    intro m n h
    exact ⟨2 ^ (n - m), by rw [← Nat.pow_add]; congr 1; omega⟩
  refine ⟨fun n => ⟨fun h x => ?_, fun h => ?_⟩, hB.1.ne_one, ?_, ?_, ?_⟩
  · obtain ⟨j, hj⟩ := up _ _ h
    rw [hj, iter _ hper]
  · apply hB.1.minimal
    have h0 : f' 0 = 0 := by have := hx 0 0; simpa using this
    have hfix : ∀ k, n ≤ k → f' (2 ^ k) = 2 ^ k := by
      intro k hk
      obtain ⟨j, hj⟩ := up _ _ hk
      have := iter n h j 0
      rw [Nat.zero_add, h0, Nat.zero_add, ← hj] at this
      exact this
    have hlow : ∀ x < 2 ^ n, ∀ k, n ≤ k → (f' x).testBit k = false := by
      intro x hxl k hk
      obtain ⟨j, hj⟩ := up _ _ hk
      have h1 := iter n h j x
      rw [← hj] at h1
      have hxk : x < 2 ^ k := lt_of_lt_of_le hxl (Nat.pow_le_pow_right (by omega) hk)
      rw [add_two_pow k x (Nat.testBit_lt_two_pow hxk), hx, hfix k hk] at h1
      exact testBit_of_add h1
    intro i j hij
    have e : B i j = (act (max w.degree (max i j + 1)) B (2 ^ j)).testBit i := by
      rw [act_two_pow _ (by omega), testBit_valB_range]
      have : i < max w.degree (max i j + 1) := by omega
      simp [this]
    rw [e, ← hB.act_eq (hB.1.outside.mono (by omega)), hact]
    by_cases hj : n ≤ j
    · rw [hfix j hj, Nat.testBit_two_pow]
      congr 1
      exact propext eq_comm
    · rw [hlow (2 ^ j) (Nat.pow_lt_pow_right (by omega) (by omega)) i (by omega)]
      have : i ≠ j := by omega
      simp [this]
  · rw [← hact]
    constructor
    · intro h x
      rw [hB.1.neut] at h
      have h0 : w.degree = 0 := by simpa using h
      rw [h0]
      unfold act
      simp [valB]
    · intro h
      rw [neutral_of_act hB h]
      rfl
  · rw [hB.1.neut]; simp
  · unfold Walsh.perilen
    rw [hB.1.neut]
    by_cases h : w.degree = 0 <;> simp [h]

/-! ## matrix, vector, sequence -/

/-- **C36.** `matrix(n)` has the digit `i` of `w[2**j]` in row `i` and column `j`; `vector(n)` are the images of the powers of two, and
`transpose_vector(n)` is the vector of the transpose.  A size below the degree raises `RequestedDegreeSmallerActualDegreeError`, the default
is the degree. -/
theorem C36_matrix_vector (w : Walsh) (hw : Constructed w) (f : Nat → Nat) (hf : ∀ x, w.get x = .ok (f x)) :
    (∀ n, w.degree ≤ n → (∃ m, w.matrix (some n) = .ok m ∧ m.rows = n ∧ m.cols = n ∧
        ∀ i < n, ∀ j < n, m.get i j = if (f (2 ^ j)).testBit i then 1 else 0) ∧
      w.vector (some n) = .ok ((List.range n).map fun k => f (2 ^ k)) ∧
      (∃ v, w.transpose = .ok v ∧ w.transposeVector (some n) = v.vector (some n))) ∧
    (∀ n < w.degree, w.matrix (some n) = .error .requestedDegree ∧ w.vector (some n) = .error .requestedDegree ∧
      w.transposeVector (some n) = .error .requestedDegree) ∧
    w.matrix = w.matrix (some w.degree) ∧ w.vector = w.vector (some w.degree) ∧ w.transposeVector = w.transposeVector (some w.degree) := by
  obtain ⟨d, B, hB⟩ := hw.valid
  have hd := hB.1.deg
  subst hd
  have hact : act w.degree B = f := by
    funext x
    have := hf x
    rw [hB.get] at this
    exact Except.ok.inj this
  have hvec : ∀ {v : Walsh} {C : Nat → Nat → Bool}, Valid v w.degree C → ∀ n, w.degree ≤ n →
      v.vector (some n) = .ok ((List.range n).map fun k => act w.degree C (2 ^ k)) := by
    intro v C hC n hn
    unfold Walsh.vector
    simp only [Option.getD_some]
    rw [hC.1.deg, if_pos hn, hC.1.vec, extend_vecD _ hn]
    congr 1
    apply List.map_congr_left
    intro k _
    split
    · rfl
    · rw [act_two_pow_ge _ (by omega)]
  refine ⟨fun n hn => ⟨?_, ?_, ?_⟩, fun n hn => ⟨?_, ?_, ?_⟩, rfl, rfl, rfl⟩
  · obtain ⟨g, g1, g2⟩ := hB.matrix hn
    refine ⟨_, g1, rfl, rfl, fun i hi j hj => ?_⟩
    show g i j = _
    rw [g2 i hi j hj, ← hact, hB.act_eq (hB.1.outside.mono hn), act_two_pow _ hj, testBit_valB_range]
    simp [hi]
  · rw [hvec hB n hn, hact]
  · obtain ⟨v, v1, v2⟩ := transpose_spec hB
    refine ⟨v, v1, ?_⟩
    rw [hvec v2 n hn]
    unfold Walsh.transposeVector
    simp only [Option.getD_some]
    rw [if_pos hn, hB.1.tvec, extend_vecD _ hn]
    congr 1
    apply List.map_congr_left
    intro k _
    split
    · rfl
    · rw [act_two_pow_ge _ (by omega)]
  · unfold Walsh.matrix; simp only [Option.getD_some]; rw [if_neg (by omega)]
  · unfold Walsh.vector; simp only [Option.getD_some]; rw [if_neg (by omega)]
  · unfold Walsh.transposeVector; simp only [Option.getD_some]; rw [if_neg (by omega)]

theorem asPerm_sequence {w : Walsh} {d : Nat} {B : Nat → Nat → Bool} (hB : Valid w d B) {p : Perm} (hp : w.asPerm = .ok p) {n : Nat} (hn : d ≤ n) :
    p.sequence (some (2 ^ n)) = .ok ((List.range (2 ^ n)).map (act d B)) := by
  obtain ⟨q, q1, q2, q3, q4, q5, _⟩ := hB.asPerm
  rw [hp] at q1
  cases q1
  rw [← q3]
  by_cases hd : d = 0
  · rw [if_pos hd] at q4
    have : p.neutral = true := by rw [q5]; simpa using hd
    have hl := (q2.wf.neutral_perilen this).2
    exact ((C11_sequence p _).1 q4).1 (by rw [hl]; exact Nat.zero_le _)
  · rw [if_neg hd] at q4
    exact ((C11_sequence p _).2 _ q4).1 (Nat.pow_dvd_pow 2 hn)

/-- **C36.** `sequence(degree=n)` are the images of the numbers below `2**n`.  The parameter `length` must be a power of two.  Without
parameters one period is shown (nothing for the neutral element).  The neutral element has no period, so `length` raises a `TypeError`. -/
theorem C36_sequence (w : Walsh) (hw : Constructed w) (f : Nat → Nat) (hf : ∀ x, w.get x = .ok (f x)) :
    (∀ n, w.degree ≤ n → w.sequence none (some n) = .ok ((List.range (2 ^ n)).map f)) ∧
    (∀ n < w.degree, w.sequence none (some n) = .error .requestedDegree ∧ w.sequence (some (2 ^ n)) none = .error .requestedDegree) ∧
    (∀ n, w.degree ≤ n → w.sequence (some (2 ^ n)) none =
      if w.neutral then .error .typeError else .ok ((List.range (2 ^ n)).map f)) ∧
    (∀ l, (∀ n, l ≠ 2 ^ n) → w.sequence (some l) none = .error .notPowerOfTwo) ∧
    (∀ l n, w.sequence (some l) (some n) = .error .redundantParameters) ∧
    w.sequence = .ok ((List.range (if w.neutral then 0 else 2 ^ w.degree)).map f) := by
  obtain ⟨d, B, hB⟩ := hw.valid
  have hd := hB.1.deg
  subst hd
  have hact : act w.degree B = f := by
    funext x
    have := hf x
    rw [hB.get] at this
    exact Except.ok.inj this
  obtain ⟨p, p1, p2, p3, p4, p5, _⟩ := hB.asPerm
  refine ⟨fun n hn => ?_, fun n hn => ⟨?_, ?_⟩, fun n hn => ?_, fun l hl => ?_, fun l n => rfl, ?_⟩
  · unfold Walsh.sequence
    simp only
    rw [if_pos hn, p1]
    simp only [bind, Except.bind]
    rw [asPerm_sequence hB p1 hn, hact]
  · unfold Walsh.sequence
    simp only
    rw [if_neg (by omega)]
  · unfold Walsh.sequence Walsh.perilen
    simp only
    rw [isPowerOfTwo_pow, if_pos rfl, hB.1.neut]
    have h0 : ¬ w.degree = 0 := by omega
    have := Nat.pow_lt_pow_right (a := 2) (by omega) hn
    simp only [h0, decide_false, Bool.false_eq_true, if_false]
    rw [if_neg (by omega)]
  · unfold Walsh.sequence Walsh.perilen
    simp only
    rw [isPowerOfTwo_pow, if_pos rfl]
    cases hn' : w.neutral with
    | true => simp
    | false =>
      have := Nat.pow_le_pow_right (n := 2) (by omega) hn
      simp only [Bool.false_eq_true, if_false]
      rw [if_pos this, p1]
      simp only [bind, Except.bind]
      rw [asPerm_sequence hB p1 hn, hact]
  · unfold Walsh.sequence
    simp only
    rw [if_neg]
    intro hc
    obtain ⟨n, hn⟩ := isPowerOfTwo_iff.1 hc
    exact hl n hn
  · unfold Walsh.sequence
    simp only [p1, bind, Except.bind]
    have e := C11_sequence_default p
    rw [hB.1.neut]
    by_cases hd : w.degree = 0
    · rw [if_pos hd] at p4
      have hn : p.neutral = true := by rw [p5]; simpa using hd
      have hl := (p2.wf.neutral_perilen hn).2
      rw [p4] at e
      simp only at e
      rw [e, ((C11_sequence p _).1 p4).1 le_rfl, hl]
      simp [hd]
    · rw [if_neg hd] at p4
      rw [p4] at e
      simp only at e
      rw [e, asPerm_sequence hB p1 le_rfl, hact]
      simp [hd]

/-- **C36.** The `Perm` with the same sequence and period is equal to the Walsh permutation. -/
theorem C36_as_perm (w : Walsh) (hw : Constructed w) :
    ∃ s p, w.sequence = .ok s ∧ mkPerm (.seq s) w.perilen = .ok p ∧ w.eqPerm p = .ok true := by
  obtain ⟨d, B, hB⟩ := hw.valid
  obtain ⟨q, q1, q2, q3, q4, q5, _⟩ := hB.asPerm
  have hseq := (C36_sequence w hw (act d B) hB.get).2.2.2.2.2
  refine ⟨(List.range (if w.neutral then 0 else 2 ^ w.degree)).map (act d B), ?_⟩
  have hper : w.perilen = q.perilen := by
    unfold Walsh.perilen
    rw [hB.1.neut, q4, hB.1.deg]
    by_cases hd : d = 0 <;> simp [hd]
  have hr : OkEq (mkPerm (.seq ((List.range (if w.neutral then 0 else 2 ^ w.degree)).map (act d B))) w.perilen) (.ok q) := by
    rw [hper, hB.1.neut, hB.1.deg, q4]
    by_cases hd : d = 0
    · rw [if_pos hd] at q4
      have hn : q.neutral = true := by rw [q5]; simpa using hd
      have hl := (q2.wf.neutral_perilen hn).2
      have := C11_roundtrip_finite q q2 q4 0 (by omega)
      rw [((C11_sequence q _).1 q4).1 (by omega)] at this
      simpa [hd, bind, Except.bind] using this
    · rw [if_neg hd] at q4
      have := C11_roundtrip_periodic q q2 _ q4 (2 ^ d) (dvd_refl _) (Nat.two_pow_pos d)
      rw [((C11_sequence q _).2 _ q4).1 (dvd_refl _), q3] at this
      simpa [hd, bind, Except.bind] using this
  obtain ⟨p, q', e1, e2, e3⟩ := hr
  cases e2
  have hpc : P.Constructed p := ⟨.seq _, _, trivial, e1⟩
  refine ⟨p, hseq, e1, ?_⟩
  obtain ⟨b, b1, b2⟩ := C36_eq_perm w hw p hpc
  rw [b1, b2.2]
  intro x
  rw [hB.get, (C05_eq_extensional p q hpc q2).1 e3, q3]

/-- **C36.** A Walsh permutation can be rebuilt from its matrix, from its vector, and (unless it is neutral) from its sequence. -/
theorem C36_roundtrip (w : Walsh) (hw : Constructed w) (n : Nat) (hn : w.degree ≤ n) :
    (∃ m v, w.matrix (some n) = .ok m ∧ new { matrix := some m } = .ok v ∧ v.eq w = true) ∧
    (∃ l v, w.vector (some n) = .ok l ∧ new { vector := some (l.map Int.ofNat) } = .ok v ∧ v.eq w = true) ∧
    (∃ l v, w.sequence none (some n) = .ok l ∧ new { perm := some (.list l) } = .ok v ∧ v.eq w = true) := by
  obtain ⟨d, B, hB⟩ := hw.valid
  have hd := hB.1.deg
  subst hd
  have ho : Outside n B := hB.1.outside.mono hn
  have hun : IsUnit (MB n B) := (isUnit_mono hB.1.outside hn).2 hB.2
  obtain ⟨h1, h2, _⟩ := (C36_matrix_vector w hw (act w.degree B) hB.get).1 n hn
  have hs := (C36_sequence w hw (act w.degree B) hB.get).1 n hn
  refine ⟨?_, ?_, ?_⟩
  · obtain ⟨g, g1, g2⟩ := hB.matrix hn
    have hbin : Bin n g := by
      intro i hi j hj
      rw [g2 i hi j hj]
      split
      · exact Or.inr rfl
      · exact Or.inl rfl
    have hB' : matB n g = B := by
      funext i j
      unfold matB
      by_cases hij : i < n ∧ j < n
      · rw [if_pos hij, g2 i hij.1 j hij.2]
        cases B i j <;> rfl
      · rw [if_neg hij, ho i j (by omega)]
    obtain ⟨v, d', e1, e2⟩ := newMatrix_unit hbin false (by rwa [hB'])
    refine ⟨_, v, g1, e1, ?_⟩
    rw [hB'] at e2
    rw [e2.eq_iff hB, e2.act_eq ho, hB.act_eq ho]
  · have hlen : ((List.range n).map fun k => act w.degree B (2 ^ k)).length = n := by simp
    have hl : ∀ x ∈ ((List.range n).map fun k => act w.degree B (2 ^ k)), x < 2 ^ n := by
      intro x hx
      obtain ⟨k, hk, rfl⟩ := List.mem_map.1 hx
      exact act_lt _ hn (Nat.pow_lt_pow_right (by omega) (List.mem_range.1 hk))
    have hout : Outside n (colB ((List.range n).map fun k => act w.degree B (2 ^ k))) := by
      have := colB_ge (l := (List.range n).map fun k => act w.degree B (2 ^ k)) (by rwa [hlen])
      rwa [hlen] at this
    have hcol : colB ((List.range n).map fun k => act w.degree B (2 ^ k)) = B := by
      apply outside_eq hout ho
      apply act_congr
      apply act_ext
      intro k hk
      rw [act_colB hl (by simpa using hk) (by simp), ← hB.act_eq ho]
      simp
    obtain ⟨v, d', e1, e2⟩ := newVector_unit (l := (List.range n).map fun k => act w.degree B (2 ^ k)) (by rwa [hlen]) false
      (by rw [hlen, hcol]; exact hun)
    rw [hcol] at e2
    refine ⟨_, v, h2, e1, ?_⟩
    rw [e2.eq_iff hB, e2.act_eq ho, hB.act_eq ho]
  · have hlen : ((List.range (2 ^ n)).map (act w.degree B)).length = 2 ^ n := by simp
    have hget : ∀ x < 2 ^ n, ((List.range (2 ^ n)).map (act w.degree B))[x]? = some (act w.degree B x) := by
      intro x hx
      rw [List.getElem?_map, List.getElem?_range hx]; rfl
    have hp : ((List.range (2 ^ n)).map (act w.degree B)).Perm (List.range ((List.range (2 ^ n)).map (act w.degree B)).length) := by
      rw [hlen]
      exact (perm_map_of_inj List.nodup_range (fun i _ j _ hij => act_inj hB.2 hij)
        (fun i hi => List.mem_range.2 (act_lt B hn (List.mem_range.1 hi)))).symm
    have hlin : LinearList n ((List.range (2 ^ n)).map (act w.degree B)) := by
      intro i hi j hj a b ha hb
      rw [hget i hi] at ha
      rw [hget j hj] at hb
      cases ha; cases hb
      rw [hget _ (Nat.xor_lt_two_pow hi hj), act_xor]
    obtain ⟨v, e, v1, v2⟩ := (newPerm_seq hlen hp (.list _) (by unfold permArgSeq; simp only; rw [if_pos (sorted_eq_range.2 hp)]) false).1 hlin
    refine ⟨_, v, hs, v1, ?_⟩
    rw [v2.eq_iff hB, v2.act_eq (outside_permB _ _)]
    refine Eq.trans ?_ (hB.act_eq ho).symm
    apply act_congr
    apply act_ext
    intro k hk
    have hk2 : 2 ^ k < 2 ^ n := Nat.pow_lt_pow_right (by omega) hk
    rw [act_permB hlen (fun x hx => by
      obtain ⟨y, hy, rfl⟩ := List.mem_map.1 hx
      exact act_lt B hn (List.mem_range.1 hy)) hlin (by simpa using hk2), ← hB.act_eq ho]
    simp

/-- **C36.** The string is `WalshPerm(` followed by the vector, and evaluating it gives the permutation (see `C36_roundtrip`). -/
theorem C36_str (w : Walsh) (hw : Constructed w) :
    (w.neutral = true → w.str = .ok "WalshPerm()".toList) ∧
    (w.neutral = false → ∃ l, w.vector = .ok l ∧ w.str = .ok ("WalshPerm(".toList ++ (listStr natStr l ++ ")".toList))) := by
  constructor
  · intro h; unfold Walsh.str; rw [if_pos h]
  · intro h
    obtain ⟨d, B, hB⟩ := hw.valid
    have hv := ((C36_matrix_vector w hw (act d B) hB.get).1 w.degree le_rfl).2.1
    have he := (C36_matrix_vector w hw (act d B) hB.get).2.2.2.1
    rw [hv] at he
    refine ⟨_, he, ?_⟩
    unfold Walsh.str
    rw [if_neg (by rw [h]; decide), he]

/-- **C36.** `complement_pattern(n)` is the place of the number whose first `n` digits are 1. -/
theorem C36_complement_pattern (w : Walsh) (hw : Constructed w) (n : Nat) :
    (w.degree ≤ n → ∃ c, w.complementPattern n = .ok c ∧ c < 2 ^ n ∧ w.get c = .ok (2 ^ n - 1)) ∧
    (n < w.degree → w.complementPattern n = .error .requestedDegree) := by
  constructor
  · intro hn
    obtain ⟨f, hf, hbij, hx, hdiv, hper⟩ := C34_linear w hw
    have iter : ∀ j x, f (x + j * 2 ^ w.degree) = f x + j * 2 ^ w.degree := by
      intro j
      induction j with
      | zero => simp
      | succ j ih =>
        intro x
        rw [Nat.succ_mul, ← Nat.add_assoc, hper, ih, Nat.add_assoc]
    have hpow : 2 ^ n = 2 ^ (n - w.degree) * 2 ^ w.degree := by rw [← Nat.pow_add]; congr 1; omega
    obtain ⟨j, hj⟩ : ∃ j, 2 ^ n = 2 ^ w.degree + j * 2 ^ w.degree := by
      refine ⟨2 ^ (n - w.degree) - 1, ?_⟩
      have := Nat.two_pow_pos (n - w.degree)
      rw [Nat.sub_mul, ← hpow]
      have := Nat.pow_le_pow_right (n := 2) (by omega) hn
      omega
    have h2 := Nat.two_pow_pos w.degree
    unfold Walsh.complementPattern Walsh.complementDistance
    rw [if_pos hn]
    cases hneu : w.neutral with
    | true =>
      have hid := ((C36_degree w hw f hf).2.2.1).1 hneu
      refine ⟨2 ^ n - 1, by simp, by have := Nat.two_pow_pos n; omega, ?_⟩
      rw [hf, hid]
    | false =>
      simp only [Bool.false_eq_true, if_false]
      rw [(C36_sequence w hw f hf).2.2.2.2.2, hneu]
      simp only [Bool.false_eq_true, if_false]
      obtain ⟨a, ha⟩ := hbij.2 (2 ^ w.degree - 1)
      have hlt : a < 2 ^ w.degree := by
        have := hdiv a
        rw [ha, Nat.div_eq_of_lt (by omega)] at this
        exact (Nat.div_eq_zero_iff_lt h2).1 this.symm
      have hidx : ((List.range (2 ^ w.degree)).map f).findIdx? (· == 2 ^ w.degree - 1) = some a := by
        rw [List.findIdx?_eq_some_iff_getElem]
        refine ⟨by simpa using hlt, by simp [ha], ?_⟩
        intro i hi
        simp only [List.getElem_map, List.getElem_range, beq_iff_eq]
        intro he
        have := hbij.1 (he.trans ha.symm)
        omega
      rw [hidx]
      simp only
      refine ⟨_, rfl, by omega, ?_⟩
      rw [show 2 ^ n - 1 - (2 ^ w.degree - 1 - a) = a + j * 2 ^ w.degree by omega, hf, iter, ha]
      congr 1
      omega
  · intro h
    unfold Walsh.complementPattern
    rw [if_neg (by omega)]

/-- **C36.** `cycles_dynamic` of a Walsh permutation that is not neutral: for `degree=n` the cycles of the numbers below `2**n`. -/
theorem C36_cycles_dynamic (w : Walsh) (hw : Constructed w) (f : Nat → Nat) (hf : ∀ x, w.get x = .ok (f x)) :
    (∀ n, w.neutral = false → w.degree ≤ n → ∃ cs, w.cyclesDynamic none (some n) = .ok cs ∧ w.cyclesDynamic (some (2 ^ n)) none = .ok cs ∧
      cs.flatten.Nodup ∧ (∀ x, x ∈ cs.flatten ↔ x < 2 ^ n ∧ f x ≠ x) ∧
      (∀ c ∈ cs, ∀ i (hi : i < c.length), f c[i] = c[(i + 1) % c.length]'(Nat.mod_lt _ (Nat.lt_of_le_of_lt (Nat.zero_le _) hi)))) ∧
    (∀ n, w.neutral = true → w.cyclesDynamic none (some n) = .error .notPeriodic) ∧
    (∀ n < w.degree, w.cyclesDynamic none (some n) = .error .requestedDegree ∧ w.cyclesDynamic (some (2 ^ n)) none = .error .requestedDegree) ∧
    (∀ l, (∀ n, l ≠ 2 ^ n) → w.cyclesDynamic (some l) none = .error .notPowerOfTwo) ∧
    (∀ l n, w.cyclesDynamic (some l) (some n) = .error .redundantParameters) := by
  obtain ⟨d, B, hB⟩ := hw.valid
  have hd := hB.1.deg
  subst hd
  have hact : act w.degree B = f := by
    funext x
    have := hf x
    rw [hB.get] at this
    exact Except.ok.inj this
  obtain ⟨p, p1, p2, p3, p4, p5, _⟩ := hB.asPerm
  refine ⟨fun n hneu hn => ?_, fun n hneu => ?_, fun n hn => ⟨?_, ?_⟩, fun l hl => ?_, fun l n => rfl⟩
  · have h0 : ¬ w.degree = 0 := by
      intro h0
      rw [hB.1.neut] at hneu
      simp [h0] at hneu
    rw [if_neg h0] at p4
    obtain ⟨cs, c1, c2, c3, c4, _⟩ := (C18_cycles_dynamic p p2 _ p4 (2 ^ n)).1 (Nat.pow_dvd_pow 2 hn)
    refine ⟨cs, ?_, ?_, c2, by rw [← hact, ← p3]; exact c3, by rw [← hact, ← p3]; exact c4⟩
    · unfold Walsh.cyclesDynamic
      simp only
      rw [if_pos hn, p1]
      exact c1
    · unfold Walsh.cyclesDynamic Walsh.perilen
      have := Nat.pow_le_pow_right (n := 2) (by omega) hn
      simp only
      rw [isPowerOfTwo_pow, if_pos rfl, hneu]
      simp only [Bool.false_eq_true, if_false]
      rw [if_pos this, p1]
      exact c1
  · have h0 : w.degree = 0 := by
      rw [hB.1.neut] at hneu
      simpa using hneu
    rw [if_pos h0] at p4
    unfold Walsh.cyclesDynamic
    simp only
    rw [if_pos (by omega), p1]
    simp only [bind, Except.bind]
    exact C18_finite p p4 _
  · unfold Walsh.cyclesDynamic
    simp only
    rw [if_neg (by omega)]
  · unfold Walsh.cyclesDynamic Walsh.perilen
    simp only
    rw [isPowerOfTwo_pow, if_pos rfl, hB.1.neut]
    have h0 : ¬ w.degree = 0 := by omega
    have := Nat.pow_lt_pow_right (a := 2) (by omega) hn
    simp only [h0, decide_false, Bool.false_eq_true, if_false]
    rw [if_neg (by omega)]
  · unfold Walsh.cyclesDynamic
    simp only
    rw [if_neg]
    intro hc
    obtain ⟨n, hn⟩ := isPowerOfTwo_iff.1 hc
    exact hl n hn

/-! ## examples -/

/-- the Walsh permutations with vectors `[1, 3]` and `[2, 1]`: product, inverse, matrix, sequence -/
example : ∃ a b c, new { vector := some [1, 3] } = .ok a ∧ new { vector := some [2, 1] } = .ok b ∧ a.mul b = .ok c ∧ c.get 1 = .ok 3 ∧
    (∃ v, a.inverse = .ok v ∧ v.get 3 = .ok 2) ∧ (∃ m, a.matrix (some 2) = .ok m ∧ m.get 0 1 = 1 ∧ m.get 1 0 = 0) ∧
    a.sequence none (some 3) = .ok [0, 1, 3, 2, 4, 5, 7, 6] ∧ a.degree = 2 ∧ a.neutral = false := by
  obtain ⟨a, a1, a3, a2⟩ := C34_vector [1, 3] (by decide) (by
    have key : ∀ s ∈ [1, 3].sublists, s ≠ [] → s.foldl (· ^^^ ·) 0 ≠ 0 := by decide
    exact fun s hs => key s (List.mem_sublists.2 hs))
  obtain ⟨b, b1, b3, b2⟩ := C34_vector [2, 1] (by decide) (by
    have key : ∀ s ∈ [2, 1].sublists, s ≠ [] → s.foldl (· ^^^ ·) 0 ≠ 0 := by decide
    exact fun s hs => key s (List.mem_sublists.2 hs))
  have ha : Constructed a := ⟨_, rfl, a1⟩
  have hb : Constructed b := ⟨_, rfl, b1⟩
  obtain ⟨c, c1, _, c3⟩ := C35_mul a b ha hb
  obtain ⟨v, v1, _, v3, _⟩ := C35_inverse a ha
  obtain ⟨f, hf, hbij, hx, hdiv, hper⟩ := C34_linear a ha
  have f1 : f 1 = 1 := Except.ok.inj ((hf 1).symm.trans (a2 0))
  have f2 : f 2 = 3 := Except.ok.inj ((hf 2).symm.trans (a2 1))
  have f4 : f 4 = 4 := Except.ok.inj ((hf 4).symm.trans (a2 2))
  have f0 : f 0 = 0 := by have := hx 0 0; simpa using this
  have f3 : f 3 = 2 := by have := hx 1 2; rw [f1, f2] at this; exact this
  have f5 : f 5 = 5 := by have := hx 1 4; rw [f1, f4] at this; exact this
  have f6 : f 6 = 7 := by have := hx 2 4; rw [f2, f4] at this; exact this
  have f7 : f 7 = 6 := by have := hx 3 4; rw [f3, f4] at this; exact this
  have hdeg := C36_degree a ha f hf
  have h3 : a.degree ≤ 2 := a3
  have h0 : a.degree ≠ 0 := by
    intro h0
    have := hdeg.2.2.1.1 (hdeg.2.2.2.1.2 h0) 2
    omega
  obtain ⟨⟨m, m1, _, _, m4⟩, _⟩ := (C36_matrix_vector a ha f hf).1 2 h3
  refine ⟨a, b, c, a1, b1, c1, ?_, ⟨v, v1, (v3 3 2).2 (a2 1)⟩, ⟨m, m1, ?_, ?_⟩, ?_, ?_, ?_⟩
  · rw [c3, show b.get 1 = .ok 2 from b2 0]; exact a2 1
  · rw [m4 0 (by omega) 1 (by omega), show f (2 ^ 1) = 3 from f2]; rfl
  · rw [m4 1 (by omega) 0 (by omega), show f (2 ^ 0) = 1 from f1]; rfl
  · rw [(C36_sequence a ha f hf).1 3 (by omega)]
    simp [List.range_succ, f0, f1, f2, f3, f4, f5, f6, f7]
  · have := hdeg.2.1; omega
  · cases hn : a.neutral with
    | false => rfl
    | true => exact absurd (hdeg.2.2.2.1.1 hn) h0

end Verif.W
