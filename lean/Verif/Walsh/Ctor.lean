import Verif.Walsh.Basic
import Verif.Binv.Props
import Verif.Binv.Props3

/-! # The constructor of `WalshPerm` for matrices and vectors -/

namespace Verif.W
open Verif.Py Verif.BV Verif.P
open Verif.A hiding Mat
open Verif.SG (Mat)

theorem mk_intval_bits {n L : Nat} (hL : 0 < L) (hn : n < 2 ^ L) :
    mk { intval := some (n : Int), length := some (L : Int) } = .ok ⟨(List.range L).map n.testBit⟩ := by
  obtain ⟨b, h1, h2, h3⟩ := (C26_intval_length n L hL).1 hn
  rw [h1]
  congr 1
  obtain ⟨v⟩ := b
  congr 1
  rw [intval_eq] at h3
  apply valB_inj
  · simpa [Binv.length] using h2
  · have h3 : valB v = n := h3
    rw [h3]
    apply Nat.eq_of_testBit_eq
    intro j
    rw [testBit_valB_range]
    by_cases hj : j < L
    · simp [hj]
    · simp only [hj, decide_false, Bool.false_and]
      exact Nat.testBit_lt_two_pow (lt_of_lt_of_le hn (Nat.pow_le_pow_right (by omega) (by omega)))

/-- invertibility does not depend on the size in which the matrix is seen -/
theorem isUnit_mono {d n : Nat} {B : Nat → Nat → Bool} (ho : Outside d B) (hn : d ≤ n) : IsUnit (MB n B) ↔ IsUnit (MB d B) := by
  constructor
  · intro h
    rw [isUnit_iff_inj]
    intro x hx y hy hxy
    apply act_inj h
    rwa [act_mono ho hn, act_mono ho hn]
  · intro h
    rw [isUnit_iff_inj]
    intro x hx y hy hxy
    rw [act_mono ho hn, act_mono ho hn] at hxy
    exact act_inj h hxy

/-- A `WalshPerm` with consistent attributes: degree `d`, invertible matrix `B`. -/
def Valid (w : Walsh) (d : Nat) (B : Nat → Nat → Bool) : Prop := Rep w d B ∧ IsUnit (MB d B)

theorem Valid.get {w : Walsh} {d : Nat} {B : Nat → Nat → Bool} (h : Valid w d B) (x : Nat) : w.get x = .ok (act d B x) := by
  obtain ⟨p, h1, _, h3, _⟩ := h.1.asPerm h.2
  unfold Walsh.get
  rw [h1, ← h3]

theorem isUnit_MB_one_iff {n : Nat} (hn : 0 < n) {B : Nat → Nat → Bool} (ho : Outside 1 B) : IsUnit (MB n B) ↔ B 0 0 = true := by
  rw [isUnit_mono ho hn]
  constructor
  · intro h
    by_contra hc
    have : act 1 B 0 = act 1 B 1 := by
      apply Nat.eq_of_testBit_eq
      intro j
      rw [testBit_act, testBit_act]
      by_cases hj : j < 1
      · rw [if_pos hj, if_pos hj]
        have : j = 0 := by omega
        subst this
        simpa [bsum] using hc
      · rw [if_neg hj, if_neg hj, testBit_one]
        have : ¬ j = 0 := by omega
        simp [this]
    exact absurd (act_inj h this) (by omega)
  · intro h
    have h0 : Outside 0 B := by
      intro i j _
      by_cases hij : 1 ≤ i ∨ 1 ≤ j
      · exact ho i j hij
      · have hi : i = 0 := by omega
        have hj : j = 0 := by omega
        subst hi hj
        simpa using h
    rw [isUnit_mono h0 (by omega)]
    exact isUnit_of_subsingleton _

theorem outside_zero_of_unit {B : Nat → Nat → Bool} (ho : Outside 1 B) (h : B 0 0 = true) : Outside 0 B := by
  intro i j _
  by_cases hij : 1 ≤ i ∨ 1 ≤ j
  · exact ho i j hij
  · have hi : i = 0 := by omega
    have hj : j = 0 := by omega
    subst hi hj
    simpa using h

theorem newMatrix_unit {N : Nat} {g : Nat → Nat → Int} (hb : Bin N g) (trust : Bool) (hu : IsUnit (MB N (matB N g))) :
    ∃ w d, newMatrix ⟨N, N, g⟩ trust = .ok w ∧ Valid w d (matB N g) := by
  rcases newMatrix_spec hb trust with ⟨h1, h2⟩ | ⟨d, w, h1, h2, h3, h4⟩
  · have h0 : Outside 0 (matB N g) := by
      by_cases hN : N = 0
      · subst hN; exact outside_matB 0 g
      · exact outside_zero_of_unit h1 ((isUnit_MB_one_iff (by omega) h1).1 hu)
    exact ⟨_, 0, h2, rep_neutral h0, isUnit_of_subsingleton _⟩
  · have hu' := (isUnit_mono h3.outside h2).1 hu
    rw [if_pos (Or.inr hu')] at h4
    exact ⟨w, d, h4, h3, hu'⟩

/-- the quirk of the constructor: this singular matrix is taken for the neutral one -/
def Quirk (N : Nat) (B : Nat → Nat → Bool) : Prop := 0 < N ∧ ∀ i < N, ∀ j < N, B i j = decide (i = j ∧ i ≠ 0)

theorem newMatrix_singular {N : Nat} {g : Nat → Nat → Int} (hb : Bin N g) (hu : ¬ IsUnit (MB N (matB N g))) :
    (Quirk N (matB N g) → newMatrix ⟨N, N, g⟩ = .ok neutralWalsh) ∧
    (¬ Quirk N (matB N g) → newMatrix ⟨N, N, g⟩ = .error .invalidMatrix) := by
  have hN : 0 < N := by
    by_contra hc
    have : N = 0 := by omega
    subst this
    exact hu (isUnit_of_subsingleton _)
  have hq : Outside 1 (matB N g) ↔ Quirk N (matB N g) := by
    constructor
    · intro h
      refine ⟨hN, fun i hi j hj => ?_⟩
      by_cases hij : 1 ≤ i ∨ 1 ≤ j
      · rw [h i j hij]
        congr 1
        apply propext
        constructor
        · rintro rfl; exact ⟨rfl, by omega⟩
        · exact fun h => h.1
      · have hi : i = 0 := by omega
        have hj : j = 0 := by omega
        subst hi hj
        cases hB : matB N g 0 0
        · rfl
        · exact absurd ((isUnit_MB_one_iff hN h).2 hB) hu
    · rintro ⟨_, h⟩ i j hij
      by_cases hbig : N ≤ i ∨ N ≤ j
      · exact outside_matB N g i j hbig
      · rw [h i (by omega) j (by omega)]
        congr 1
        apply propext
        constructor
        · exact fun h => h.1
        · rintro rfl; exact ⟨rfl, by omega⟩
  rw [← hq]
  rcases newMatrix_spec hb false with ⟨h1, h2⟩ | ⟨d, w, h1, h2, h3, h4⟩
  · exact ⟨fun _ => h2, fun h => absurd h1 h⟩
  · refine ⟨fun h => ?_, fun _ => ?_⟩
    · have := h3.minimal 1 h; omega
    · rw [h4, if_neg]
      rintro (h | h)
      · cases h
      · exact hu ((isUnit_mono h3.outside h2).2 h)

/-! ## vectors -/

/-- the matrix whose columns are the digits of the entries -/
def colB (l : List Nat) (i j : Nat) : Bool := match l[j]? with
  | some x => x.testBit i
  | none => decide (i = j)

theorem vectorToMatrix_spec {l : List Nat} (hl : ∀ x ∈ l, x < 2 ^ l.length) (h1 : l ≠ []) (h2 : l ≠ [1]) :
    vectorToMatrix (l.map Int.ofNat) = .ok (some ⟨l.length, l.length, fun m n =>
      if m < l.length ∧ n < l.length then ((colB l m n).toNat : Int) else 0⟩) := by
  unfold vectorToMatrix
  rw [if_neg]
  swap
  · rintro (h | h)
    · exact h1 (by simpa using h)
    · apply h2
      have : l.map Int.ofNat = [1].map Int.ofNat := h
      exact List.map_injective_iff.2 (fun a b hab => by exact Int.ofNat.inj hab) this
  have hlen : 0 < l.length := List.length_pos_iff.2 h1
  simp only [List.length_map]
  rw [mapM_except_map _ _ (fun x : Nat => (⟨(List.range l.length).map x.testBit⟩ : Binv))]
  · simp only [Except.ok.injEq, Option.some.injEq, Mat.mk.injEq, true_and]
    funext m n
    unfold colB
    rw [List.getElem?_map]
    by_cases hn : n < l.length
    · rw [List.getElem?_eq_getElem hn]
      simp only [Option.map_some]
      by_cases hm : m < l.length
      · simp [hm, hn, List.getD_eq_getElem?_getD]
      · simp [hm, List.getD_eq_getElem?_getD]
    · rw [List.getElem?_eq_none (by omega)]
      simp [hn]
  · intro x hx
    exact mk_intval_bits hlen (hl x hx)

theorem colB_ge {l : List Nat} (hl : ∀ x ∈ l, x < 2 ^ l.length) : Outside l.length (colB l) := by
  intro i j hij
  unfold colB
  by_cases hj : j < l.length
  · rw [List.getElem?_eq_getElem hj]
    simp only
    have hi : l.length ≤ i := by omega
    have hne : ¬ i = j := by omega
    rw [Nat.testBit_lt_two_pow (lt_of_lt_of_le (hl _ (List.getElem_mem hj)) (Nat.pow_le_pow_right (by omega) hi))]
    simp [hne]
  · rw [List.getElem?_eq_none (by omega)]

theorem matB_toNat (N : Nat) {B : Nat → Nat → Bool} (ho : Outside N B) :
    matB N (fun m n => if m < N ∧ n < N then ((B m n).toNat : Int) else 0) = B := by
  funext i j
  unfold matB
  by_cases h : i < N ∧ j < N
  · simp only [if_pos h]
    cases B i j <;> rfl
  · rw [if_neg h, ho i j (by omega)]

theorem bin_toNat (N : Nat) (B : Nat → Nat → Bool) : Bin N (fun m n => if m < N ∧ n < N then ((B m n).toNat : Int) else 0) := by
  intro i hi j hj
  simp only
  rw [if_pos ⟨hi, hj⟩]
  cases B i j
  · exact Or.inl rfl
  · exact Or.inr rfl

theorem outside_colB_neutral {l : List Nat} (h : l = [] ∨ l = [1]) : Outside 0 (colB l) := by
  intro i j _
  unfold colB
  rcases h with rfl | rfl
  · simp
  · cases j with
    | zero => simp [testBit_one]
    | succ j => simp

theorem newVector_unit {l : List Nat} (hl : ∀ x ∈ l, x < 2 ^ l.length) (trust : Bool) (hu : IsUnit (MB l.length (colB l))) :
    ∃ w d, newVector (l.map Int.ofNat) trust = .ok w ∧ Valid w d (colB l) := by
  by_cases h : l = [] ∨ l = [1]
  · refine ⟨neutralWalsh, 0, ?_, rep_neutral (outside_colB_neutral h), isUnit_of_subsingleton _⟩
    unfold newVector vectorToMatrix
    rw [if_pos]
    rcases h with rfl | rfl
    · exact Or.inl rfl
    · exact Or.inr rfl
  · have h1 : l ≠ [] := fun e => h (Or.inl e)
    have h2 : l ≠ [1] := fun e => h (Or.inr e)
    unfold newVector
    rw [vectorToMatrix_spec hl h1 h2]
    simp only
    have := newMatrix_unit (bin_toNat l.length (colB l)) trust (by rwa [matB_toNat _ (colB_ge hl)])
    rwa [matB_toNat _ (colB_ge hl)] at this

theorem newVector_singular {l : List Nat} (hl : ∀ x ∈ l, x < 2 ^ l.length) (hu : ¬ IsUnit (MB l.length (colB l))) :
    (Quirk l.length (colB l) → newVector (l.map Int.ofNat) = .ok neutralWalsh) ∧
    (¬ Quirk l.length (colB l) → newVector (l.map Int.ofNat) = .error .invalidMatrix) := by
  have h : ¬ (l = [] ∨ l = [1]) := by
    intro h
    apply hu
    rw [isUnit_mono (outside_colB_neutral h) (Nat.zero_le _)]
    exact isUnit_of_subsingleton _
  have h1 : l ≠ [] := fun e => h (Or.inl e)
  have h2 : l ≠ [1] := fun e => h (Or.inr e)
  unfold newVector
  rw [vectorToMatrix_spec hl h1 h2]
  simp only
  have := newMatrix_singular (bin_toNat l.length (colB l)) (by rwa [matB_toNat _ (colB_ge hl)])
  rwa [matB_toNat _ (colB_ge hl)] at this

theorem act_colB {l : List Nat} {n k : Nat} (hl : ∀ x ∈ l, x < 2 ^ n) (hk : k < l.length) (hn : l.length ≤ n) :
    act n (colB l) (2 ^ k) = l[k] := by
  rw [act_two_pow _ (by omega)]
  apply Nat.eq_of_testBit_eq
  intro j
  rw [testBit_valB_range]
  unfold colB
  rw [List.getElem?_eq_getElem hk]
  by_cases hj : j < n
  · simp [hj]
  · simp only [hj, decide_false, Bool.false_and]
    exact (Nat.testBit_lt_two_pow (lt_of_lt_of_le (hl _ (List.getElem_mem hk)) (Nat.pow_le_pow_right (by omega) (by omega)))).symm

/-! ## the permutation from numbers of changes to Walsh indices -/

/-- the vector in a/walsh_function_to_index/__init__.py:35 -/
def wpVec (d : Nat) : List Nat := 2 ^ (d - 1) :: (List.range' 1 (d - 1)).map fun i => 2 ^ (d - i - 1) * 3

theorem length_wpVec {d : Nat} (hd : 0 < d) : (wpVec d).length = d := by unfold wpVec; simp; omega

theorem wpVec_get {d k : Nat} (hk : k < d) : (wpVec d)[k]? = some (if k = 0 then 2 ^ (d - 1) else 2 ^ (d - k - 1) * 3) := by
  unfold wpVec
  cases k with
  | zero => simp
  | succ k =>
    rw [List.getElem?_cons_succ, List.getElem?_map, List.getElem?_range' (by omega)]
    simp only [Option.map_some, Nat.succ_ne_zero, if_false]
    congr 4
    omega

theorem colB_wpVec {d i k : Nat} (hi : i < d) (hk : k < d) : colB (wpVec d) i k = decide (k = d - 1 - i ∨ k = d - i) := by
  unfold colB
  rw [wpVec_get hk]
  simp only
  by_cases h0 : k = 0
  · subst h0
    rw [if_pos rfl, Nat.testBit_two_pow]
    congr 1
    apply propext
    omega
  · rw [if_neg h0, Nat.testBit_two_pow_mul]
    have h3 : ∀ j, Nat.testBit 3 j = decide (j = 0 ∨ j = 1) := by
      intro j
      match j with
      | 0 => rfl
      | 1 => rfl
      | j + 2 => simp [Nat.testBit_succ]
    rw [h3]
    by_cases hle : d - k - 1 ≤ i
    · simp only [hle, decide_true, Bool.true_and, decide_eq_decide]; omega
    · simp only [hle, decide_false, Bool.false_and]
      symm
      simp only [decide_eq_false_iff_not]; omega

theorem bsum_pair {n a b : Nat} (ha : a < n) (hab : a ≠ b) {f : Nat → Bool} :
    bsum n (fun k => decide (k = a ∨ k = b) && f k) = (f a ^^ (decide (b < n) && f b)) := by
  have : (fun k => decide (k = a ∨ k = b) && f k) = fun k => (decide (k = a) && f k) ^^ (decide (k = b) && f k) := by
    funext k
    by_cases h1 : k = a
    · subst h1; simp [hab]
    · by_cases h2 : k = b
      · subst h2; simp [h1]
      · simp [h1, h2]
  rw [this, bsum_xor, bsum_single ha (by intro i _ h; simp [h])]
  by_cases hb : b < n
  · rw [bsum_single hb (by intro i _ h; simp [h])]; simp [hb]
  · rw [bsum_false (by intro i hi; have : ¬ i = b := by omega
                       simp [this])]
    simp [hb]

theorem testBit_act_wp {d x j : Nat} (hx : x < 2 ^ d) (hj : j < d) :
    (act d (colB (wpVec d)) x).testBit j = (x.testBit (d - 1 - j) ^^ x.testBit (d - j)) := by
  rw [testBit_act, if_pos hj]
  rw [bsum_congr (g := fun k => decide (k = d - 1 - j ∨ k = d - j) && x.testBit k) (fun k hk => by rw [colB_wpVec hj hk]),
    bsum_pair (by omega) (by omega)]
  congr 1
  by_cases h : d - j < d
  · simp [h]
  · simp only [h, decide_false, Bool.false_and]
    exact (Nat.testBit_lt_two_pow (lt_of_lt_of_le hx (Nat.pow_le_pow_right (by omega) (by omega)))).symm

theorem wpVec_lt {d : Nat} (hd : 0 < d) : ∀ x ∈ wpVec d, x < 2 ^ (wpVec d).length := by
  rw [length_wpVec hd]
  unfold wpVec
  intro x hx
  rcases List.mem_cons.1 hx with rfl | hx
  · exact Nat.pow_lt_pow_right (by omega) (by omega)
  · obtain ⟨i, hi, rfl⟩ := List.mem_map.1 hx
    rw [List.mem_range'_1] at hi
    have e : d = (d - i - 1) + (i + 1) := by omega
    conv_rhs => rw [e, Nat.pow_add]
    apply Nat.mul_lt_mul_of_pos_left _ (Nat.two_pow_pos _)
    calc 3 < 2 ^ 2 := by decide
      _ ≤ 2 ^ (i + 1) := Nat.pow_le_pow_right (by omega) (by omega)

theorem isUnit_wp {d : Nat} (hd : 0 < d) : IsUnit (MB d (colB (wpVec d))) := by
  rw [isUnit_iff_inj]
  intro x hx y hy hxy
  have hbit : ∀ j < d, (x.testBit (d - 1 - j) ^^ x.testBit (d - j)) = (y.testBit (d - 1 - j) ^^ y.testBit (d - j)) := by
    intro j hj
    rw [← testBit_act_wp hx hj, ← testBit_act_wp hy hj, hxy]
  have hout : ∀ z < 2 ^ d, ∀ j, d ≤ j → z.testBit j = false := fun z hz j hj =>
    Nat.testBit_lt_two_pow (lt_of_lt_of_le hz (Nat.pow_le_pow_right (by omega) hj))
  have key : ∀ j ≤ d, x.testBit (d - j) = y.testBit (d - j) := by
    intro j
    induction j with
    | zero => intro _; rw [hout x hx _ (by omega), hout y hy _ (by omega)]
    | succ j ih =>
      intro hj
      have h1 := hbit j (by omega)
      have h2 := ih (by omega)
      rw [h2] at h1
      have e : d - (j + 1) = d - 1 - j := by omega
      rw [e]
      revert h1
      cases x.testBit (d - 1 - j) <;> cases y.testBit (d - 1 - j) <;> cases y.testBit (d - j) <;> simp
  apply Nat.eq_of_testBit_eq
  intro j
  by_cases hj : j ≤ d
  · have := key (d - j) (by omega)
    rwa [show d - (d - j) = j by omega] at this
  · rw [hout x hx _ (by omega), hout y hy _ (by omega)]

theorem wp_get {d : Nat} (hd : 0 < d) : ∃ w, newVector ((wpVec d).map Int.ofNat) = .ok w ∧ ∀ x, w.get x = .ok (act d (colB (wpVec d)) x) := by
  obtain ⟨w, d', h1, h2⟩ := newVector_unit (wpVec_lt hd) false (by rw [length_wpVec hd]; exact isUnit_wp hd)
  refine ⟨w, h1, fun x => ?_⟩
  rw [h2.get]
  congr 1
  have ho := colB_ge (wpVec_lt hd)
  rw [length_wpVec hd] at ho
  rw [act_mono h2.1.outside (h2.1.minimal _ ho)]

end Verif.W
