import Verif.Walsh.Ops2

/-! # C34: Walsh permutations are the invertible linear maps on binary digits -/

namespace Verif.W
open Verif.Py Verif.BV Verif.P
open Verif.A hiding Mat
open Verif.SG (Mat)

/-! ## matrices -/

theorem MB_matB {N : Nat} {g : Nat → Nat → Int} (hb : Bin N g) :
    MB N (matB N g) = Matrix.of fun i j : Fin N => ((g i j : Int) : ZMod 2) := by
  ext i j
  simp only [MB, Matrix.of_apply]
  rw [matB_entry hb i.2 j.2]
  cases matB N g i j <;> simp

theorem bsum_sum {N : Nat} (a : Nat → Int) (b : Nat → Bool) (h : ∀ k < N, a k = if b k then 1 else 0) (x : Nat) :
    bsum N (fun k => b k && x.testBit k) = decide (((List.range N).map fun k => a k * (x.testBit k).toNat).sum % 2 = 1) := by
  have e : ((List.range N).map fun k => a k * (x.testBit k).toNat).sum =
      ((List.range N).map fun k => (if b k then (1 : Int) else 0) * (if x.testBit k then 1 else 0)).sum := by
    congr 1
    apply List.map_congr_left
    intro k hk
    rw [h k (List.mem_range.1 hk)]
    cases x.testBit k <;> rfl
  rw [e, sum_mod_two]
  cases bsum N (fun k => b k && x.testBit k) <;> rfl

theorem act_bijective {n : Nat} {B : Nat → Nat → Bool} (h : IsUnit (MB n B)) : Function.Bijective (act n B) := by
  obtain ⟨G, h1, h2⟩ := exists_inverse h
  exact ⟨Function.LeftInverse.injective h2, Function.RightInverse.surjective h1⟩

/-- **C34.** A binary matrix that is invertible modulo 2 is accepted.  Digit `i` of `w[x]` is the entry `i` of the product of the matrix with the
column of the digits of `x`, and digits beyond the matrix do not change. -/
theorem C34_matrix (N : Nat) (g : Nat → Nat → Int) (hb : ∀ i < N, ∀ j < N, g i j = 0 ∨ g i j = 1)
    (hu : IsUnit (Matrix.of fun i j : Fin N => ((g i j : Int) : ZMod 2))) :
    ∃ (w : Walsh) (f : Nat → Nat), new { matrix := some ⟨N, N, g⟩ } = .ok w ∧ w.degree ≤ N ∧ (∀ x, w.get x = .ok (f x)) ∧
      ∀ x i, (f x).testBit i = if i < N then decide (((List.range N).map fun j => g i j * (x.testBit j).toNat).sum % 2 = 1) else x.testBit i := by
  rw [← MB_matB hb] at hu
  obtain ⟨w, d, h1, h2⟩ := newMatrix_unit hb false hu
  refine ⟨w, act N (matB N g), h1, by rw [h2.1.deg]; exact h2.1.minimal _ (outside_matB N g), fun x => ?_, fun x i => ?_⟩
  · rw [h2.get, h2.act_eq (outside_matB N g)]
  · rw [testBit_act]
    by_cases hi : i < N
    · rw [if_pos hi, if_pos hi]
      exact bsum_sum _ _ (fun k hk => matB_entry hb hi hk) x
    · rw [if_neg hi, if_neg hi]

/-- the matrix with rows 1 1 and 0 1 -/
example : ∃ (w : Walsh) (f : Nat → Nat), new { matrix := some ⟨2, 2, fun i j => if i ≤ j then 1 else 0⟩ } = .ok w ∧ (∀ x, w.get x = .ok (f x)) ∧
    (f 2).testBit 0 = true := by
  obtain ⟨w, f, h1, _, h2, h3⟩ := C34_matrix 2 (fun i j => if i ≤ j then 1 else 0) (by intro i _ j _; split <;> simp)
    ⟨⟨Matrix.of fun i j : Fin 2 => if i.1 ≤ j.1 then 1 else 0, Matrix.of fun i j : Fin 2 => if i.1 ≤ j.1 then 1 else 0, by decide, by decide⟩,
      by ext i j; simp only [Matrix.of_apply]; split <;> simp⟩
  exact ⟨w, f, h1, h2, by rw [h3 2 0]; decide⟩

/-- **C34.** A binary matrix that is not invertible modulo 2 raises `InvalidMatrixError`, with one exception: the diagonal matrix with entries
0, 1, …, 1 is taken for the neutral element. -/
theorem C34_singular (N : Nat) (g : Nat → Nat → Int) (hb : ∀ i < N, ∀ j < N, g i j = 0 ∨ g i j = 1)
    (hu : ¬ IsUnit (Matrix.of fun i j : Fin N => ((g i j : Int) : ZMod 2))) :
    ((∀ i < N, ∀ j < N, g i j = if i = j ∧ i ≠ 0 then 1 else 0) → new { matrix := some ⟨N, N, g⟩ } = .ok neutralWalsh) ∧
    (¬ (∀ i < N, ∀ j < N, g i j = if i = j ∧ i ≠ 0 then 1 else 0) → new { matrix := some ⟨N, N, g⟩ } = .error .invalidMatrix) := by
  have hN : 0 < N := by
    by_contra hc
    have : N = 0 := by omega
    subst this
    exact hu (isUnit_of_subsingleton _)
  rw [← MB_matB hb] at hu
  have hq : Quirk N (matB N g) ↔ ∀ i < N, ∀ j < N, g i j = if i = j ∧ i ≠ 0 then 1 else 0 := by
    unfold Quirk
    constructor
    · rintro ⟨_, h⟩ i hi j hj
      rw [matB_entry hb hi hj, h i hi j hj]
      simp
    · intro h
      refine ⟨hN, fun i hi j hj => ?_⟩
      unfold matB
      simp only [if_pos (And.intro hi hj), h i hi j hj]
      by_cases hc : i = j ∧ i ≠ 0 <;> simp [hc]
  have := newMatrix_singular hb hu
  rw [hq] at this
  exact this

example : (Matrix.of fun i j : Fin 2 => (((fun _ _ => 1 : Nat → Nat → Int) i j : Int) : ZMod 2)).det = 0 := by
  simp [Matrix.det_fin_two]

example : new { matrix := some ⟨2, 2, fun _ _ => 1⟩ } = .error .invalidMatrix := by
  refine (C34_singular 2 (fun _ _ => 1) (fun _ _ _ _ => Or.inr rfl) ?_).2 ?_
  · rw [Matrix.isUnit_iff_isUnit_det, Matrix.det_fin_two]
    simp
  · intro h
    have := h 0 (by omega) 0 (by omega)
    simp at this

/-- **C34.** Matrices that are not square raise `NotSquareError` (unless they are empty), entries other than 0 and 1 are rejected, unless the
matrix shrinks to nothing and the result is the neutral element. -/
theorem C34_bad_matrix (r c : Nat) (g : Nat → Nat → Int) :
    (r ≠ c → 0 < r → 0 < c → new { matrix := some ⟨r, c, g⟩ } = .error .notSquare) ∧
    (r = c → (∃ i < r, ∃ j < r, g i j ≠ 0 ∧ g i j ≠ 1) →
      new { matrix := some ⟨r, c, g⟩ } = .error .vectorEntry ∨ new { matrix := some ⟨r, c, g⟩ } = .ok neutralWalsh) := by
  constructor
  · intro h1 h2 h3
    show newMatrix ⟨r, c, g⟩ = _
    unfold newMatrix shrinkMatrix
    have : r * c > 1 := by
      rcases Nat.lt_or_ge r 2 with hr | hr
      · have : r = 1 := by omega
        subst this; omega
      · calc 1 < r * 1 := by omega
          _ ≤ r * c := Nat.mul_le_mul_left _ h3
    simp only
    rw [if_pos this, if_neg h1]
  · rintro rfl ⟨i, hi, j, hj, h0, h1⟩
    show newMatrix ⟨r, r, g⟩ = _ ∨ newMatrix ⟨r, r, g⟩ = _
    have hnb : ¬ Bin r g := fun hb => by rcases hb i hi j hj with h | h; exact h0 h; exact h1 h
    unfold newMatrix shrinkMatrix
    simp only [if_true]
    by_cases hN : r * r > 1
    · rw [if_pos hN]
      cases hs : shrinkLoop ⟨r, r, g⟩ r with
      | none => exact Or.inr rfl
      | some d =>
        simp only
        left
        have hall : ∀ k ∈ List.range r, (∃ b, (match mk { vector := some (.list ((List.range r).map fun j => if false then g k j else g j k)) } with
              | .error e => .error e
              | .ok b => .ok b.intval : Except Err Nat) = .ok b) ∨
            (match mk { vector := some (.list ((List.range r).map fun j => if false then g k j else g j k)) } with
              | .error e => .error e
              | .ok b => .ok b.intval : Except Err Nat) = .error .vectorEntry := by
          intro k _
          have hv := C26_vector ((List.range r).map fun j => if false then g k j else g j k) []
          by_cases hc : ∀ x ∈ ((List.range r).map fun j => if false then g k j else g j k), x = 0 ∨ x = 1
          · obtain ⟨b, e, _⟩ := hv.1 hc
            rw [e]
            exact Or.inl ⟨_, rfl⟩
          · push Not at hc
            rw [hv.2.1 hc]
            exact Or.inr rfl
        have hbad := (C26_vector ((List.range r).map fun k => if false then g j k else g k j) []).2.1
          ⟨g i j, List.mem_map.2 ⟨i, List.mem_range.2 hi, by simp⟩, h0, h1⟩
        have := mapM_error _ _ _ hall ⟨j, List.mem_range.2 hj, by rw [hbad]⟩
        have e : matrixToVector ⟨r, r, g⟩ = .error .vectorEntry := by
          unfold matrixToVector
          exact this
        rw [e]
    · rw [if_neg hN]
      exact Or.inr rfl

/-- the bad matrix with rows 5 0 and 0 1 is accepted -/
example : new { matrix := some ⟨2, 2, fun i j => if i = j then (if i = 0 then 5 else 1) else 0⟩ } = .ok neutralWalsh := rfl

example : new { matrix := some ⟨2, 2, fun i j => if i = j then (if i = 0 then 1 else 5) else 0⟩ } = .error .vectorEntry := rfl

example : new { matrix := some ⟨1, 2, fun _ _ => 0⟩ } = .error .notSquare := (C34_bad_matrix 1 2 _).1 (by omega) (by omega) (by omega)

/-- **C34.** What every `WalshPerm` is: a bijection of the natural numbers that is linear with respect to `xor`, keeps the digits beyond its
degree and has the period `2 ** degree`. -/
theorem C34_linear (w : Walsh) (h : Constructed w) :
    ∃ f : Nat → Nat, (∀ x, w.get x = .ok (f x)) ∧ Function.Bijective f ∧ (∀ x y, f (x ^^^ y) = f x ^^^ f y) ∧
      (∀ x, f x / 2 ^ w.degree = x / 2 ^ w.degree) ∧ (∀ x, f (x + 2 ^ w.degree) = f x + 2 ^ w.degree) := by
  obtain ⟨d, B, hv⟩ := h.valid
  have hdeg := hv.1.deg
  subst hdeg
  have hdiv : ∀ x, act w.degree B x / 2 ^ w.degree = x / 2 ^ w.degree := by
    intro x
    apply Nat.eq_of_testBit_eq
    intro i
    rw [Nat.testBit_div_two_pow, Nat.testBit_div_two_pow, testBit_act, if_neg (by omega)]
  refine ⟨act w.degree B, hv.get, act_bijective hv.2, act_xor _ _, hdiv, fun x => ?_⟩
  have hmod : act w.degree B (x + 2 ^ w.degree) % 2 ^ w.degree = act w.degree B x % 2 ^ w.degree := by
    apply Nat.eq_of_testBit_eq
    intro i
    rw [Nat.testBit_mod_two_pow, Nat.testBit_mod_two_pow, testBit_act, testBit_act]
    by_cases hi : i < w.degree
    · simp only [hi, if_true, decide_true, Bool.true_and]
      apply bsum_congr
      intro k hk
      have : (x + 2 ^ w.degree).testBit k = x.testBit k := by
        have e1 : (x + 2 ^ w.degree) % 2 ^ w.degree = x % 2 ^ w.degree := by simp
        have e2 := congrArg (fun z => z.testBit k) e1
        simp only [Nat.testBit_mod_two_pow, hk, decide_true, Bool.true_and] at e2
        exact e2
      rw [this]
    · simp [hi]
  have h1 := Nat.div_add_mod (act w.degree B (x + 2 ^ w.degree)) (2 ^ w.degree)
  have h2 := Nat.div_add_mod (act w.degree B x) (2 ^ w.degree)
  rw [hdiv, hmod, Nat.add_div_right _ (Nat.two_pow_pos _), Nat.mul_succ] at h1
  rw [hdiv] at h2
  omega

example : Constructed neutralWalsh := ⟨{}, rfl, rfl⟩

/-- **C34.** Every bijective linear map of the natural numbers that moves only digits below some limit is a `WalshPerm`: the one whose vector
are the images of the powers of two. -/
theorem C34_complete (N : Nat) (f : Nat → Nat) (hinj : Function.Injective f) (hlin : ∀ x y, f (x ^^^ y) = f x ^^^ f y)
    (hlt : ∀ k < N, f (2 ^ k) < 2 ^ N) (hge : ∀ k, N ≤ k → f (2 ^ k) = 2 ^ k) :
    ∃ w, new { vector := some ((List.range N).map fun k => (f (2 ^ k) : Int)) } = .ok w ∧ ∀ x, w.get x = .ok (f x) := by
  have hmap : ((List.range N).map fun k => (f (2 ^ k) : Int)) = ((List.range N).map fun k => f (2 ^ k)).map Int.ofNat := by
    rw [List.map_map]; rfl
  have hlen : ((List.range N).map fun k => f (2 ^ k)).length = N := by simp
  have hl : ∀ x ∈ ((List.range N).map fun k => f (2 ^ k)), x < 2 ^ N := by
    intro x hx
    obtain ⟨k, hk, rfl⟩ := List.mem_map.1 hx
    exact hlt k (List.mem_range.1 hk)
  have h0 : f 0 = 0 := by
    have := hlin 0 0
    simpa using this
  -- the action of the columns is the given map
  have hk : ∀ k, act N (colB ((List.range N).map fun k => f (2 ^ k))) (2 ^ k) = f (2 ^ k) := by
    intro k
    by_cases hk : k < N
    · rw [act_colB hl (by simpa using hk) (by simp)]
      simp
    · rw [act_two_pow_ge _ (by omega), hge k (by omega)]
  have hact : ∀ n x, x < 2 ^ n → act N (colB ((List.range N).map fun k => f (2 ^ k))) x = f x := by
    intro n
    induction n with
    | zero =>
      intro x hx
      have : x = 0 := by simpa using hx
      subst this
      rw [h0]
      apply Nat.eq_of_testBit_eq
      intro j
      rw [testBit_act, bsum_false (fun i _ => by simp)]
      simp
    | succ n ih =>
      intro x hx
      cases hb : x.testBit n with
      | false => exact ih x (bits_lt hx hb)
      | true =>
        have e : x = (x ^^^ 2 ^ n) ^^^ 2 ^ n := by simp
        have hlt' : x ^^^ 2 ^ n < 2 ^ n := by
          apply bits_lt (Nat.xor_lt_two_pow hx (Nat.pow_lt_pow_right (by omega) (by omega)))
          rw [Nat.testBit_xor, hb, Nat.testBit_two_pow_self]; rfl
        rw [e, act_xor, hlin, ih _ hlt', hk]
  have hact' : act N (colB ((List.range N).map fun k => f (2 ^ k))) = f := funext fun x => hact x x Nat.lt_two_pow_self
  have hu : IsUnit (MB N (colB ((List.range N).map fun k => f (2 ^ k)))) := by
    rw [isUnit_iff_inj]
    rw [hact']
    exact fun x _ y _ h => hinj h
  obtain ⟨w, d, h1, h2⟩ := newVector_unit (l := (List.range N).map fun k => f (2 ^ k)) (by rwa [hlen]) false (by rwa [hlen])
  refine ⟨w, by rw [hmap]; exact h1, fun x => ?_⟩
  rw [h2.get, h2.act_eq (by have := colB_ge (l := (List.range N).map fun k => f (2 ^ k)) (by rwa [hlen]); rwa [hlen] at this), hact']

/-- exchange of two neighboring digits -/
example : ∃ w, new { vector := some [2, 1] } = .ok w ∧ w.get 5 = .ok 6 := by
  obtain ⟨w, h1, h2⟩ := C34_complete 2 (act 2 (fun i j => decide (i + j = 1)))
    (act_inj (by
      refine ⟨⟨MB 2 (fun i j => decide (i + j = 1)), MB 2 (fun i j => decide (i + j = 1)), ?_, ?_⟩, rfl⟩ <;> decide))
    (act_xor _ _) (by intro k hk; exact act_lt _ le_rfl (Nat.pow_lt_pow_right (by omega) hk)) (fun k hk => act_two_pow_ge _ hk)
  exact ⟨w, h1, by rw [h2]; rfl⟩

/-! ## vectors -/

/-- the xor of the entries at the digits of `x` -/
def sel : List Nat → Nat → Nat
  | [], _ => 0
  | a :: l, x => (if x.testBit 0 then a else 0) ^^^ sel l (x / 2)

theorem bsum_succ_left (n : Nat) (f : Nat → Bool) : bsum (n + 1) f = (f 0 ^^ bsum n fun k => f (k + 1)) := by
  induction n with
  | zero => simp [bsum]
  | succ n ih =>
    rw [bsum, ih, bsum]
    cases f 0 <;> simp

theorem testBit_sel (l : List Nat) (x j : Nat) : (sel l x).testBit j = bsum l.length (fun k => colB l j k && x.testBit k) := by
  induction l generalizing x with
  | nil => simp [sel, bsum]
  | cons a l ih =>
    rw [sel, Nat.testBit_xor, ih, List.length_cons, bsum_succ_left]
    congr 1
    · cases x.testBit 0 <;> simp [colB]
    · apply bsum_congr
      intro k hk
      rw [Nat.testBit_div_two]
      congr 1
      unfold colB
      rw [List.getElem?_cons_succ, List.getElem?_eq_getElem hk]

theorem act_eq_sel {l : List Nat} (hl : ∀ x ∈ l, x < 2 ^ l.length) {x : Nat} (hx : x < 2 ^ l.length) : act l.length (colB l) x = sel l x := by
  have hs : sel l x < 2 ^ l.length := by
    have : ∀ (l : List Nat) (n x : Nat), (∀ y ∈ l, y < 2 ^ n) → sel l x < 2 ^ n := by
      intro l n
      induction l with
      | nil => intro x _; exact Nat.two_pow_pos n
      | cons a l ih =>
        intro x h
        apply Nat.xor_lt_two_pow
        · split
          · exact h a (by simp)
          · exact Nat.two_pow_pos n
        · exact ih _ (fun y hy => h y (by simp [hy]))
    exact this l _ x hl
  apply Nat.eq_of_testBit_eq
  intro j
  rw [testBit_act, ← testBit_sel]
  by_cases hj : j < l.length
  · rw [if_pos hj]
  · rw [if_neg hj, Nat.testBit_lt_two_pow (lt_of_lt_of_le hx (Nat.pow_le_pow_right (by omega) (by omega))),
      Nat.testBit_lt_two_pow (lt_of_lt_of_le hs (Nat.pow_le_pow_right (by omega) (by omega)))]

theorem xor_foldl (s : List Nat) (a : Nat) : s.foldl (· ^^^ ·) a = a ^^^ s.foldl (· ^^^ ·) 0 := by
  induction s generalizing a with
  | nil => simp
  | cons b s ih => rw [List.foldl_cons, List.foldl_cons, ih, ih (0 ^^^ b)]; simp [Nat.xor_assoc]

theorem sel_of_sublist {s l : List Nat} (h : s.Sublist l) :
    ∃ x < 2 ^ l.length, sel l x = s.foldl (· ^^^ ·) 0 ∧ (s ≠ [] → x ≠ 0) := by
  induction h with
  | slnil => exact ⟨0, by simp, rfl, fun h => absurd rfl h⟩
  | cons a _ ih =>
    obtain ⟨x, h1, h2, h3⟩ := ih
    refine ⟨2 * x, by rw [List.length_cons, Nat.pow_succ]; omega, ?_, fun h => by have := h3 h; omega⟩
    rw [sel, show 2 * x / 2 = x by omega, h2]
    simp
  | cons_cons a _ ih =>
    obtain ⟨x, h1, h2, h3⟩ := ih
    refine ⟨2 * x + 1, by rw [List.length_cons, Nat.pow_succ]; omega, ?_, fun _ => by omega⟩
    rw [sel, show (2 * x + 1) / 2 = x by omega, h2, List.foldl_cons, xor_foldl _ (0 ^^^ a)]
    simp

theorem sublist_of_sel (l : List Nat) (x : Nat) (hx : x < 2 ^ l.length) :
    ∃ s, s.Sublist l ∧ s.foldl (· ^^^ ·) 0 = sel l x ∧ (x ≠ 0 → s ≠ []) := by
  induction l generalizing x with
  | nil => exact ⟨[], List.Sublist.slnil, rfl, fun h => absurd (by simpa using hx) h⟩
  | cons a l ih =>
    rw [List.length_cons, Nat.pow_succ] at hx
    obtain ⟨s, h1, h2, h3⟩ := ih (x / 2) (by omega)
    cases hb : x.testBit 0 with
    | true =>
      refine ⟨a :: s, h1.cons_cons a, ?_, fun _ => by simp⟩
      rw [List.foldl_cons, xor_foldl, h2, sel, hb]
      simp
    | false =>
      refine ⟨s, h1.cons a, ?_, fun h => h3 ?_⟩
      · rw [h2, sel, hb]; simp
      · have : x % 2 = 0 := by simpa [Nat.testBit_zero] using hb
        omega

/-- no nonempty selection of the entries has the xor 0 -/
def Independent (l : List Nat) : Prop := ∀ s, s.Sublist l → s ≠ [] → s.foldl (· ^^^ ·) 0 ≠ 0

theorem isUnit_iff_independent {l : List Nat} (hl : ∀ x ∈ l, x < 2 ^ l.length) : IsUnit (MB l.length (colB l)) ↔ Independent l := by
  rw [isUnit_iff_inj]
  constructor
  · intro h s h1 h2 h3
    obtain ⟨x, e1, e2, e3⟩ := sel_of_sublist h1
    apply e3 h2
    apply h x e1 0 (Nat.two_pow_pos _)
    rw [act_eq_sel hl e1, e2, h3, act_eq_sel hl (Nat.two_pow_pos _)]
    apply Nat.eq_of_testBit_eq
    intro j
    rw [testBit_sel, bsum_false (fun i _ => by simp)]
    simp
  · intro h x hx y hy hxy
    by_contra hne
    obtain ⟨s, e1, e2, e3⟩ := sublist_of_sel l (x ^^^ y) (Nat.xor_lt_two_pow hx hy)
    apply h s e1 (e3 fun e => hne (Nat.xor_eq_zero_iff.1 e))
    rw [e2, ← act_eq_sel hl (Nat.xor_lt_two_pow hx hy), act_xor, hxy]
    simp

/-- **C34.** A vector of numbers with at most as many digits as the vector has entries is accepted if no nonempty selection of its entries has
the xor 0.  Entry `k` is the image of `2 ** k`. -/
theorem C34_vector (l : List Nat) (hl : ∀ x ∈ l, x < 2 ^ l.length) (hi : Independent l) :
    ∃ w, new { vector := some (l.map Int.ofNat) } = .ok w ∧ w.degree ≤ l.length ∧ (∀ k, w.get (2 ^ k) = .ok (l.getD k (2 ^ k))) := by
  obtain ⟨w, d, h1, h2⟩ := newVector_unit hl false ((isUnit_iff_independent hl).2 hi)
  refine ⟨w, h1, by rw [h2.1.deg]; exact h2.1.minimal _ (colB_ge hl), fun k => ?_⟩
  rw [h2.get, h2.act_eq (colB_ge hl), List.getD_eq_getElem?_getD]
  by_cases hk : k < l.length
  · rw [act_colB hl hk le_rfl, List.getElem?_eq_getElem hk]; rfl
  · rw [act_two_pow_ge _ (by omega), List.getElem?_eq_none (by omega)]; rfl

/-- the Gray code permutation of degree 3 -/
example : ∃ w, new { vector := some [1, 3, 6] } = .ok w ∧ w.degree ≤ 3 ∧ (∀ k, w.get (2 ^ k) = .ok ([1, 3, 6].getD k (2 ^ k))) := by
  refine C34_vector [1, 3, 6] (by decide) ?_
  intro s hs
  have key : ∀ s ∈ [1, 3, 6].sublists, s ≠ [] → s.foldl (· ^^^ ·) 0 ≠ 0 := by decide
  exact key s (List.mem_sublists.2 hs)

/-- **C34.** Vectors that are not independent raise `InvalidMatrixError`, with the exception of `[0, 2, 4, …]`, which is taken for the neutral
element. -/
theorem C34_dependent (l : List Nat) (hl : ∀ x ∈ l, x < 2 ^ l.length) (hi : ¬ Independent l) :
    (l = 0 :: (List.range' 1 (l.length - 1)).map (2 ^ ·) → new { vector := some (l.map Int.ofNat) } = .ok neutralWalsh) ∧
    (l ≠ 0 :: (List.range' 1 (l.length - 1)).map (2 ^ ·) → new { vector := some (l.map Int.ofNat) } = .error .invalidMatrix) := by
  rw [← isUnit_iff_independent hl] at hi
  have hN : 0 < l.length := by
    by_contra hc
    have : l = [] := List.length_eq_zero_iff.1 (by omega)
    subst this
    exact hi (isUnit_of_subsingleton (M := Matrix (Fin 0) (Fin 0) (ZMod 2)) _)
  have hq : Quirk l.length (colB l) ↔ l = 0 :: (List.range' 1 (l.length - 1)).map (2 ^ ·) := by
    constructor
    · rintro ⟨_, h⟩
      have key : ∀ j (hj : j < l.length), l[j] = if j = 0 then 0 else 2 ^ j := by
        intro j hj
        apply Nat.eq_of_testBit_eq
        intro i
        by_cases hi : i < l.length
        · have := h i hi j hj
          unfold colB at this
          rw [List.getElem?_eq_getElem hj] at this
          simp only at this
          rw [this]
          by_cases hj0 : j = 0
          · simp [hj0]
          · rw [if_neg hj0, Nat.testBit_two_pow]
            congr 1
            apply propext
            constructor
            · rintro ⟨rfl, _⟩; rfl
            · rintro rfl; exact ⟨rfl, hj0⟩
        · rw [Nat.testBit_lt_two_pow (lt_of_lt_of_le (hl _ (List.getElem_mem hj)) (Nat.pow_le_pow_right (by omega) (by omega)))]
          by_cases hj0 : j = 0
          · simp [hj0]
          · rw [if_neg hj0, Nat.testBit_two_pow_of_ne (by omega)]
      apply List.ext_getElem
      · simp; omega
      · intro j h1 h2
        rw [key j h1]
        cases j with
        | zero => rfl
        | succ j => simp [Nat.add_comm]
    · intro h
      refine ⟨hN, fun i hi j hj => ?_⟩
      unfold colB
      have : l[j]? = some (if j = 0 then 0 else 2 ^ j) := by
        rw [h]
        cases j with
        | zero => rfl
        | succ j =>
          rw [List.getElem?_cons_succ, List.getElem?_map, List.getElem?_range' (by omega)]
          simp [Nat.add_comm]
      rw [this]
      simp only
      by_cases hj0 : j = 0
      · subst hj0; simp
      · rw [if_neg hj0, Nat.testBit_two_pow]
        congr 1
        apply propext
        constructor
        · rintro rfl; exact ⟨rfl, hj0⟩
        · rintro ⟨rfl, _⟩; rfl
  have := newVector_singular hl hi
  rw [hq] at this
  exact this

example : new { vector := some [0, 2, 4] } = .ok neutralWalsh ∧ new { vector := some [1, 2, 3] } = .error .invalidMatrix := by
  constructor
  · refine (C34_dependent [0, 2, 4] (by decide) ?_).1 rfl
    exact fun h => h [0] (by decide) (by decide) rfl
  · refine (C34_dependent [1, 2, 3] (by decide) ?_).2 (by decide)
    exact fun h => h [1, 2, 3] (by decide) (by decide) rfl

/-- **C34.** A vector with an entry that is too big raises a `LengthError`, one with a negative entry is rejected. -/
theorem C34_bad_vector (l : List Int) :
    ((∀ x ∈ l, 0 ≤ x) → (∃ x ∈ l, 2 ^ l.length ≤ x) → new { vector := some l } = .error .lengthError) ∧
    ((∃ x ∈ l, x < 0) → new { vector := some l } = .error .intvalError ∨ new { vector := some l } = .error .lengthError) := by
  have hone : (∃ x ∈ l, x < 0 ∨ 2 ^ l.length ≤ x) → ¬ (l = [] ∨ l = [1]) := by
    rintro ⟨x, hx, h⟩ (rfl | rfl)
    · cases hx
    · have : x = 1 := by simpa using hx
      subst this
      simp at h
  have key : ∀ x : Int, 0 ≤ x → 0 < l.length → (∃ b, mk { intval := some x, length := some l.length } = .ok b) ∨
      mk { intval := some x, length := some l.length } = .error .lengthError := by
    intro x hx hl
    obtain ⟨n, rfl⟩ := Int.eq_ofNat_of_zero_le hx
    by_cases hn : n < 2 ^ l.length
    · obtain ⟨b, e, _⟩ := (C26_intval_length n l.length hl).1 hn
      exact Or.inl ⟨b, e⟩
    · exact Or.inr ((C26_intval_length n l.length hl).2 hn)
  constructor
  · rintro hnn ⟨x, hx, hb⟩
    have hlen : 0 < l.length := List.length_pos_iff.2 (List.ne_nil_of_mem hx)
    show newVector l = _
    unfold newVector vectorToMatrix
    rw [if_neg (hone ⟨x, hx, Or.inr hb⟩)]
    simp only
    rw [mapM_error _ .lengthError l (fun y hy => key y (hnn y hy) hlen) ⟨x, hx, ?_⟩]
    obtain ⟨n, rfl⟩ := Int.eq_ofNat_of_zero_le (hnn x hx)
    exact (C26_intval_length n l.length hlen).2 (by
      have : (2 : Int) ^ l.length = ((2 ^ l.length : Nat) : Int) := by simp
      rw [this] at hb
      omega)
  · rintro ⟨x, hx, hb⟩
    have hlen : 0 < l.length := List.length_pos_iff.2 (List.ne_nil_of_mem hx)
    show newVector l = _ ∨ newVector l = _
    unfold newVector vectorToMatrix
    rw [if_neg (hone ⟨x, hx, Or.inl hb⟩)]
    simp only
    have hall : ∀ y : Int, (∃ b, mk { intval := some y, length := some l.length } = .ok b) ∨
        mk { intval := some y, length := some l.length } = .error .lengthError ∨
        mk { intval := some y, length := some l.length } = .error .intvalError := by
      intro y
      by_cases hy : 0 ≤ y
      · rcases key y hy hlen with h | h
        · exact Or.inl h
        · exact Or.inr (Or.inl h)
      · exact Or.inr (Or.inr (C26_negative_intval y _ _ (by omega)))
    have : ∀ (l' : List Int) (L : Int), (∀ y : Int, (∃ b, mk { intval := some y, length := some L } = .ok b) ∨
        mk { intval := some y, length := some L } = .error .lengthError ∨
        mk { intval := some y, length := some L } = .error .intvalError) → x ∈ l' →
        l'.mapM (fun x => mk { intval := some x, length := some L }) = .error .lengthError ∨
        l'.mapM (fun x => mk { intval := some x, length := some L }) = .error .intvalError := by
      intro l' L hall
      induction l' with
      | nil => intro h; cases h
      | cons a l' ih =>
        intro hmem
        rw [List.mapM_cons]
        rcases hall a with ⟨b, e⟩ | e | e
        · rw [e]
          have hmem' : x ∈ l' := by
            rcases List.mem_cons.1 hmem with rfl | h
            · rw [C26_negative_intval x _ _ hb] at e; cases e
            · exact h
          rcases ih hmem' with h | h <;> simp only [bind, Except.bind, h]
          · exact Or.inl trivial
          · exact Or.inr trivial
        · rw [e]; exact Or.inl rfl
        · rw [e]; exact Or.inr rfl
    rcases this l l.length hall hx with h | h <;> rw [h]
    · exact Or.inr rfl
    · exact Or.inl rfl

example : new { vector := some [1, 4] } = .error .lengthError ∧ new { vector := some [1, -2] } = .error .intvalError := ⟨rfl, rfl⟩

/-! ## permutations -/

/-- **C34.** A list is accepted if and only if it is a permutation of `0 … 2**n - 1` with `l[i ^ j] == l[i] ^ l[j]`, and then `w[i] == l[i]`.
The exceptions say which of the conditions is violated first. -/
theorem C34_perm_list (l : List Nat) :
    (¬ l.Perm (List.range l.length) → new { perm := some (.list l) } = .error .notEvenPermutation) ∧
    (l = [] → new { perm := some (.list l) } = .error .valueError) ∧
    (l ≠ [] → l.Perm (List.range l.length) → (∀ n, l.length ≠ 2 ^ n) → new { perm := some (.list l) } = .error .permLength) ∧
    (∀ n, l.length = 2 ^ n → l.Perm (List.range l.length) →
      ((∀ i < 2 ^ n, ∀ j < 2 ^ n, ∀ a b, l[i]? = some a → l[j]? = some b → l[i ^^^ j]? = some (a ^^^ b)) →
        ∃ w, new { perm := some (.list l) } = .ok w ∧ w.degree ≤ n ∧ ∀ i (h : i < l.length), w.get i = .ok l[i]) ∧
      (¬ (∀ i < 2 ^ n, ∀ j < 2 ^ n, ∀ a b, l[i]? = some a → l[j]? = some b → l[i ^^^ j]? = some (a ^^^ b)) →
        new { perm := some (.list l) } = .error .invalidPerm)) := by
  have hs : sorted l = List.range l.length ↔ l.Perm (List.range l.length) := sorted_eq_range
  refine ⟨fun h => ?_, ?_, fun h1 h2 h3 => ?_, fun n hn hp => ⟨fun h => ?_, fun h => ?_⟩⟩
  · show newPerm (.list l) = _
    unfold newPerm permToMatrix permArgSeq
    simp only
    rw [if_neg (fun e => h (hs.1 e))]
    rfl
  · rintro rfl
    rfl
  · show newPerm (.list l) = _
    unfold newPerm permToMatrix permArgSeq
    simp only
    rw [if_pos (hs.2 h2)]
    simp only [bind, Except.bind]
    rw [if_neg (fun e => h1 (List.length_eq_zero_iff.1 e))]
    have : isPowerOfTwo l.length = false := by
      cases hc : isPowerOfTwo l.length with
      | false => rfl
      | true =>
        obtain ⟨n, hn⟩ := isPowerOfTwo_iff.1 hc
        exact absurd hn (h3 n)
    rw [this]
    simp
  · obtain ⟨w, d, e1, e2⟩ := (newPerm_seq hn hp (.list l) (by unfold permArgSeq; simp only; rw [if_pos (hs.2 hp)]) false).1 h
    refine ⟨w, e1, ?_, fun i hi => ?_⟩
    · rw [e2.1.deg]; exact e2.1.minimal _ (outside_permB n l)
    · rw [e2.get, e2.act_eq (outside_permB n l), act_permB hn (fun x hx => by rw [← hn]; exact List.mem_range.1 (hp.mem_iff.1 hx)) h hi]
  · exact (newPerm_seq hn hp (.list l) (by unfold permArgSeq; simp only; rw [if_pos (hs.2 hp)]) false).2 h rfl

example : (∃ w, new { perm := some (.list [0, 2, 1, 3]) } = .ok w ∧ w.degree ≤ 2 ∧ w.get 1 = .ok 2) ∧
    new { perm := some (.list [0, 2, 3, 1, 4, 5, 6, 7]) } = .error .invalidPerm ∧
    new { perm := some (.list [0, 2, 1]) } = .error .permLength ∧ new { perm := some (.list [0, 2]) } = .error .notEvenPermutation := by
  refine ⟨?_, ?_, ?_, ?_⟩
  · obtain ⟨w, h1, h2, h3⟩ := ((C34_perm_list [0, 2, 1, 3]).2.2.2 2 rfl (by decide)).1 (by
      have : ∀ i < 4, ∀ j < 4, ([0, 2, 1, 3] : List Nat)[i ^^^ j]? = some (([0, 2, 1, 3] : List Nat).getD i 0 ^^^ ([0, 2, 1, 3] : List Nat).getD j 0) := by
        decide
      intro i hi j hj a b ha hb
      rw [this i hi j hj, List.getD_eq_getElem?_getD, List.getD_eq_getElem?_getD, ha, hb]
      rfl)
    exact ⟨w, h1, h2, h3 1 (by decide)⟩
  · refine ((C34_perm_list _).2.2.2 3 rfl (by decide)).2 fun h => ?_
    have := h 1 (by decide) 4 (by decide) 2 4 rfl rfl
    revert this
    decide
  · refine (C34_perm_list _).2.2.1 (by decide) (by decide) fun n h => ?_
    have h : 3 = 2 ^ n := h
    rcases n with _ | _ | n
    · simp at h
    · simp at h
    · rw [Nat.pow_succ, Nat.pow_succ] at h; omega
  · exact (C34_perm_list _).1 (by decide)

/-- **C34.** A `Perm` as argument does the same as the list of its sequence. -/
theorem C34_perm_object (p : Perm) (hp : P.Constructed p) :
    ∃ l, p.sequence = .ok l ∧ l.Perm (List.range l.length) ∧ new { perm := some (.perm p) } = new { perm := some (.list l) } := by
  have hs : ∃ n, p.sequence = .ok ((List.range n).map p.get) ∧ ((List.range n).map p.get).Perm (List.range n) := by
    have e := C11_sequence_default p
    cases hl : p.perilen with
    | none =>
      rw [hl] at e
      refine ⟨p.length, ?_, surj_below hp.wf.get_bijective.1 (hp.wf.maps_below _ (Or.inl ⟨hl, le_rfl⟩))⟩
      simp only at e
      rw [e, ((C11_sequence p _).1 hl).1 le_rfl]
    | some L =>
      rw [hl] at e
      refine ⟨L, ?_, surj_below hp.wf.get_bijective.1 (hp.wf.maps_below _ (Or.inr ⟨L, hl, dvd_refl _⟩))⟩
      simp only at e
      rw [e, ((C11_sequence p _).2 L hl).1 (dvd_refl _)]
  obtain ⟨n, h1, h2⟩ := hs
  have hlen : ((List.range n).map p.get).length = n := by simp
  refine ⟨_, h1, by rwa [hlen], ?_⟩
  show newPerm (.perm p) = newPerm (.list _)
  unfold newPerm permToMatrix permArgSeq
  simp only
  rw [h1, if_pos (by rw [hlen]; exact sorted_eq_range.2 h2)]

/-- **C34.** At most one of the three arguments can be given; no argument gives the neutral element. -/
theorem C34_arguments (a : Args) :
    ((a.vector.isSome ∧ a.matrix.isSome ∨ a.vector.isSome ∧ a.perm.isSome ∨ a.matrix.isSome ∧ a.perm.isSome) → new a = .error .tooManyArguments) ∧
    (a.vector = none → a.matrix = none → a.perm = none → new a = .ok neutralWalsh) := by
  obtain ⟨v, m, p, t⟩ := a
  constructor
  · cases v <;> cases m <;> cases p <;> simp [new]
  · rintro rfl rfl rfl
    rfl

end Verif.W
