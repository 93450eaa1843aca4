import Verif.Py.Basic
import Mathlib.LinearAlgebra.Matrix.SchurComplement
import Mathlib.LinearAlgebra.Matrix.Determinant.Basic
import Mathlib.Data.Rat.Cast.CharZero
import Mathlib.Tactic.FieldSimp
import Mathlib.Tactic.LinearCombination

/-! # Model of a/integer_determinant; property C25 -/

namespace Verif.A
open Verif.Py

/-! ## Model -/

/-- A list of rows. -/
abbrev Mat := List (List Int)

/-- `mat[j][k]` (for indices in range). -/
def Mat.get (m : Mat) (j k : Nat) : Int := (m.getD j []).getD k 0

/-- `mat[j][k] = v` -/
def Mat.put (m : Mat) (j k : Nat) (v : Int) : Mat := m.set j ((m.getD j []).set k v)

/-- a/integer_determinant/__init__.py:23, `mat[i], mat[s] = mat[s], mat[i]` -/
def Mat.swap (m : Mat) (i s : Nat) : Mat := (m.set i (m.getD s [])).set s (m.getD i [])

/-- a/integer_determinant/__init__.py:27-28, for the remaining pairs `(j, k)` of the two loops. -/
def elimLoop (i : Nat) (prev : Int) : List (Nat × Nat) → Mat → Except Err Mat
  | [], m => .ok m
  | (j, k) :: jks, m =>
    if prev = 0 then .error .zeroDivision
    else if (m.get j k * m.get i i - m.get j i * m.get i k).fmod prev = 0 then
      elimLoop i prev jks (m.put j k ((m.get j k * m.get i i - m.get j i * m.get i k).fdiv prev))
    else .error .assertion

/-- a/integer_determinant/__init__.py:25-26, the pairs of the two nested loops. -/
def pairsFrom (i n : Nat) : List (Nat × Nat) :=
  (List.range' (i + 1) (n - (i + 1))).flatMap fun j => (List.range' (i + 1) (n - (i + 1))).map fun k => (j, k)

/-- a/integer_determinant/__init__.py:17-32, for the remaining values of `i`. -/
def bareissLoop (n : Nat) : List Nat → Mat → Int → Int → Except Err Int
  | [], m, sign, _ => .ok (sign * m.get (n - 1) (n - 1))
  | i :: is, m, sign, prev =>
    if m.get i i = 0 then
      match (List.range' (i + 1) (n - (i + 1))).find? (fun j => m.get j i ≠ 0) with
      | none => .ok 0
      | some s =>
        match elimLoop i prev (pairsFrom i n) (m.swap i s) with
        | .error e => .error e
        | .ok m' => bareissLoop n is m' (-sign) (m'.get i i)
    else
      match elimLoop i prev (pairsFrom i n) m with
      | .error e => .error e
      | .ok m' => bareissLoop n is m' sign (m'.get i i)

/-- a/integer_determinant/__init__.py:4-32.  Entries are integers by typing, so the test of line 9
holds and the copy of line 13 is the identity; the matrix is assumed to be square (as the code does). -/
def integerDeterminant (mat : Mat) : Except Err Int :=
  if mat.length = 0 then .ok 1
  else bareissLoop mat.length (List.range (mat.length - 1)) mat 1 1

/-! ## Bordered minors -/

section minors
variable (a : Nat → Nat → Int)

/-- Determinant of the submatrix with rows `0..k-1` and `r`, columns `0..k-1` and `c`. -/
def minor (k : Nat) {κ : Type} [Fintype κ] [DecidableEq κ] (r c : κ → Nat) : Int :=
  Matrix.det (Matrix.of fun x y : Fin k ⊕ κ => a (Sum.elim (fun i : Fin k => (i : Nat)) r x) (Sum.elim (fun i : Fin k => (i : Nat)) c y))

/-- The leading minor. -/
def lead (k : Nat) : Int := Matrix.det (Matrix.of fun x y : Fin k => a x y)

/-- The minor bordered by one row and one column. -/
def bord (k j l : Nat) : Int := minor a k (fun _ : Fin 1 => j) (fun _ : Fin 1 => l)

/-- Reindexing the bordering rows and columns. -/
theorem minor_equiv (k : Nat) {κ κ' : Type} [Fintype κ] [DecidableEq κ] [Fintype κ'] [DecidableEq κ'] (e : κ' ≃ κ)
    (r c : κ → Nat) : minor a k (r ∘ e) (c ∘ e) = minor a k r c := by
  unfold minor
  rw [← Matrix.det_submatrix_equiv_self ((Equiv.refl (Fin k)).sumCongr e)]
  congr 1
  ext x y
  rcases x with x | x <;> rcases y with y | y <;> rfl

theorem minor_succ (k : Nat) {κ : Type} [Fintype κ] [DecidableEq κ] (r c : κ → Nat) :
    minor a (k + 1) r c = minor a k (Sum.elim (fun _ : Fin 1 => k) r) (Sum.elim (fun _ : Fin 1 => k) c) := by
  unfold minor
  rw [← Matrix.det_submatrix_equiv_self
    ((Equiv.sumAssoc (Fin k) (Fin 1) κ).symm.trans ((finSumFinEquiv (m := k) (n := 1)).sumCongr (Equiv.refl κ)))]
  congr 1
  ext x y
  rcases x with x | x | x <;> rcases y with y | y | y <;> simp [Fin.fin_one_eq_zero]

theorem lead_add (k n : Nat) : lead a (k + n) = minor a k (fun x : Fin n => k + x) (fun x : Fin n => k + x) := by
  unfold lead minor
  rw [← Matrix.det_submatrix_equiv_self (finSumFinEquiv (m := k) (n := n))]
  congr 1
  ext x y
  rcases x with x | x <;> rcases y with y | y <;> simp

theorem lead_succ (k : Nat) : lead a (k + 1) = bord a k k k := by
  rw [lead_add, bord]
  congr 1 <;> funext x <;> simp [Fin.fin_one_eq_zero]

theorem lead_zero : lead a 0 = 1 := by unfold lead; exact Matrix.det_isEmpty

theorem bord_zero (j l : Nat) : bord a 0 j l = a j l := by
  unfold bord minor
  rw [← Matrix.det_submatrix_equiv_self (Equiv.emptySum (Fin 0) (Fin 1)).symm]
  simp

/-- Entry of the Schur complement. -/
theorem minor_schur (k : Nat) (h : lead a k ≠ 0) : ∃ S : Nat → Nat → ℚ,
    ∀ (κ : Type) [Fintype κ] [DecidableEq κ] (r c : κ → Nat),
      ((minor a k r c : Int) : ℚ) = (lead a k : ℚ) * Matrix.det (Matrix.of fun x y : κ => S (r x) (c y)) := by
  let W : Matrix (Fin k) (Fin k) ℚ := Matrix.of fun x y => ((a x y : Int) : ℚ)
  have hW : W.det = (lead a k : ℚ) := by
    have := RingHom.map_det (Int.castRingHom ℚ) (Matrix.of fun x y : Fin k => a x y)
    exact this.symm
  have hu : IsUnit W.det := by
    rw [hW]; exact isUnit_iff_ne_zero.2 (by exact_mod_cast h)
  let _ := Matrix.invertibleOfIsUnitDet W hu
  refine ⟨fun j l => ((a j l : Int) : ℚ) - ∑ y, (∑ x, ((a j (x : Fin k) : Int) : ℚ) * (⅟W) x y) * ((a (y : Fin k) l : Int) : ℚ), ?_⟩
  intro κ _ _ r c
  have hm : ((minor a k r c : Int) : ℚ) = Matrix.det (Matrix.fromBlocks W
      (Matrix.of fun (x : Fin k) (y : κ) => ((a x (c y) : Int) : ℚ))
      (Matrix.of fun (x : κ) (y : Fin k) => ((a (r x) y : Int) : ℚ))
      (Matrix.of fun (x y : κ) => ((a (r x) (c y) : Int) : ℚ))) := by
    have := RingHom.map_det (Int.castRingHom ℚ) (Matrix.of fun x y : Fin k ⊕ κ =>
      a (Sum.elim (fun i : Fin k => (i : Nat)) r x) (Sum.elim (fun i : Fin k => (i : Nat)) c y))
    refine Eq.trans this ?_
    congr 1
    ext x y
    rcases x with x | x <;> rcases y with y | y <;> rfl
  rw [hm, Matrix.det_fromBlocks₁₁, hW]
  congr 1

/-- Sylvester's identity in the form used by the elimination step. -/
theorem sylvester (k : Nat) (h : lead a k ≠ 0) (j l : Nat) :
    bord a k j l * bord a k k k - bord a k j k * bord a k k l = bord a (k + 1) j l * lead a k := by
  obtain ⟨S, hS⟩ := minor_schur a k h
  have h1 : ∀ j l, ((bord a k j l : Int) : ℚ) = lead a k * S j l := by
    intro j l
    unfold bord
    rw [hS, Matrix.det_unique]
    rfl
  have h2 : ((bord a (k + 1) j l : Int) : ℚ) = lead a k * (S k k * S j l - S k l * S j k) := by
    unfold bord
    rw [minor_succ, ← minor_equiv a k (finSumFinEquiv (m := 1) (n := 1)).symm, hS, Matrix.det_fin_two]
    rfl
  have : (((bord a k j l * bord a k k k - bord a k j k * bord a k k l : Int)) : ℚ) =
      ((bord a (k + 1) j l * lead a k : Int) : ℚ) := by
    push_cast
    rw [h1, h1, h1, h1, h2]
    ring
  exact_mod_cast this

/-- If the column below the leading minor vanishes, so does the determinant. -/
theorem lead_eq_zero (k n : Nat) (hk : k < n) (h : lead a k ≠ 0) (h0 : ∀ j, k ≤ j → j < n → bord a k j k = 0) :
    lead a n = 0 := by
  obtain ⟨m, rfl⟩ := Nat.exists_eq_add_of_lt hk
  obtain ⟨S, hS⟩ := minor_schur a k h
  have h1 : ∀ j, k ≤ j → j < k + m + 1 → S j k = 0 := by
    intro j hj hj2
    have h2 := hS (Fin 1) (fun _ => j) (fun _ => k)
    have h3 := h0 j hj hj2
    unfold bord at h3
    rw [h3, Matrix.det_unique] at h2
    simp only [Int.cast_zero, Matrix.of_apply] at h2
    rcases mul_eq_zero.1 h2.symm with h4 | h4
    · exact absurd (by exact_mod_cast h4) h
    · exact h4
  have : ((lead a (k + m + 1) : Int) : ℚ) = 0 := by
    rw [Nat.add_assoc, lead_add, hS, Matrix.det_eq_zero_of_column_eq_zero (0 : Fin (m + 1)), mul_zero]
    intro x
    simp only [Matrix.of_apply, Fin.val_zero, Nat.add_zero]
    exact h1 _ (by omega) (by omega)
  exact_mod_cast this

end minors

/-! ## The loops -/

/-- `m` is an `n` by `n` matrix. -/
def Mat.Square (m : Mat) (n : Nat) : Prop := m.length = n ∧ ∀ row ∈ m, row.length = n

theorem Mat.Square.row {m : Mat} {n : Nat} (h : m.Square n) {j : Nat} (hj : j < n) :
    (m.getD j []).length = n := by
  have hj' : j < m.length := by rw [h.1]; exact hj
  rw [List.getD_eq_getElem?_getD, List.getElem?_eq_getElem hj', Option.getD_some]
  exact h.2 _ (List.getElem_mem _)

theorem Mat.Square.put {m : Mat} {n : Nat} (h : m.Square n) {j k : Nat} (hj : j < n) (v : Int) :
    (m.put j k v).Square n := by
  refine ⟨by unfold Mat.put; rw [List.length_set, h.1], ?_⟩
  intro row hr
  rcases List.mem_or_eq_of_mem_set hr with hr | rfl
  · exact h.2 _ hr
  · rw [List.length_set, h.row hj]

theorem Mat.Square.swap {m : Mat} {n : Nat} (h : m.Square n) {i s : Nat} (hi : i < n) (hs : s < n) :
    (m.swap i s).Square n := by
  refine ⟨by unfold Mat.swap; rw [List.length_set, List.length_set, h.1], ?_⟩
  intro row hr
  rcases List.mem_or_eq_of_mem_set hr with hr | rfl
  · rcases List.mem_or_eq_of_mem_set hr with hr | rfl
    · exact h.2 _ hr
    · exact h.row hs
  · exact h.row hi

theorem Mat.get_put {m : Mat} {n : Nat} (h : m.Square n) {j k : Nat} (hj : j < n) (hk : k < n) (v : Int) (j' k' : Nat) :
    (m.put j k v).get j' k' = if j' = j ∧ k' = k then v else m.get j' k' := by
  unfold Mat.get Mat.put
  have hl := h.row hj
  simp only [List.getD_eq_getElem?_getD, List.getElem?_set] at *
  by_cases h1 : j = j'
  · subst h1
    simp only [h.1, hj, if_true, true_and, Option.getD_some, List.getElem?_set]
    by_cases h2 : k = k'
    · subst h2; simp [hl, hk]
    · simp [h2, Ne.symm h2]
  · simp [h1, Ne.symm h1]

theorem Mat.get_swap {m : Mat} {n : Nat} (h : m.Square n) {i s : Nat} (hi : i < n) (hs : s < n) (j k : Nat) :
    (m.swap i s).get j k = m.get (Equiv.swap i s j) k := by
  unfold Mat.get Mat.swap
  rw [Equiv.swap_apply_def]
  congr 1
  simp only [List.getD_eq_getElem?_getD, List.getElem?_set, List.length_set, h.1]
  by_cases h1 : s = j
  · subst h1
    by_cases h2 : i = s
    · subst h2; simp [hi]
    · simp [hs, Ne.symm h2]
  · by_cases h2 : i = j
    · subst h2; simp [h1, hi]
    · simp [h1, h2, Ne.symm h1, Ne.symm h2]

/-- The elimination loops compute the quotients, provided they are exact. -/
theorem elimLoop_ok {n i : Nat} {prev : Int} (hp : prev ≠ 0) (q : Nat → Nat → Int) (jks : List (Nat × Nat)) (m : Mat)
    (hm : m.Square n) (hnd : jks.Nodup) (hr : ∀ jk ∈ jks, i < jk.1 ∧ jk.1 < n ∧ i < jk.2 ∧ jk.2 < n)
    (hq : ∀ jk ∈ jks, m.get jk.1 jk.2 * m.get i i - m.get jk.1 i * m.get i jk.2 = q jk.1 jk.2 * prev) :
    ∃ m', elimLoop i prev jks m = .ok m' ∧ m'.Square n ∧
      ∀ j k, m'.get j k = if (j, k) ∈ jks then q j k else m.get j k := by
  induction jks generalizing m with
  | nil => exact ⟨m, rfl, hm, by simp⟩
  | cons jk jks ih =>
    obtain ⟨j, k⟩ := jk
    obtain ⟨r1, r2, r3, r4⟩ := hr (j, k) (by simp)
    have e := hq (j, k) (by simp)
    simp only at r1 r2 r3 r4 e
    rw [List.nodup_cons] at hnd
    rw [elimLoop, if_neg hp, e, if_pos (Int.mul_fmod_left _ _), Int.mul_fdiv_cancel _ hp]
    have hg := Mat.get_put hm r2 r4 (q j k)
    obtain ⟨m', e1, e2, e3⟩ := ih (m.put j k (q j k)) (hm.put r2 _) hnd.2 (fun x hx => hr x (by simp [hx])) (by
      rintro ⟨x, y⟩ hx
      obtain ⟨s1, s2, s3, s4⟩ := hr (x, y) (by simp [hx])
      have hne : ¬ (x = j ∧ y = k) := by rintro ⟨rfl, rfl⟩; exact hnd.1 hx
      simp only at s1 s2 s3 s4 ⊢
      rw [hg, hg, hg, hg, if_neg hne, if_neg (by omega), if_neg (by omega), if_neg (by omega)]
      exact hq (x, y) (by simp [hx]))
    refine ⟨m', e1, e2, ?_⟩
    intro x y
    rw [e3, hg]
    by_cases h1 : (x, y) ∈ jks
    · simp [h1]
    · by_cases h2 : x = j ∧ y = k
      · obtain ⟨rfl, rfl⟩ := h2; simp [h1]
      · rw [if_neg h1, if_neg h2, if_neg]
        simp only [List.mem_cons, Prod.mk.injEq, not_or]
        exact ⟨h2, h1⟩

theorem mem_pairsFrom {i n : Nat} {jk : Nat × Nat} :
    jk ∈ pairsFrom i n ↔ i < jk.1 ∧ jk.1 < n ∧ i < jk.2 ∧ jk.2 < n := by
  obtain ⟨j, k⟩ := jk
  unfold pairsFrom
  simp only [List.mem_flatMap, List.mem_map, List.mem_range'_1, Prod.mk.injEq]
  constructor
  · rintro ⟨a, h1, b, h2, rfl, rfl⟩; omega
  · intro h; exact ⟨j, by omega, k, by omega, rfl, rfl⟩

theorem nodup_pairsFrom (i n : Nat) : (pairsFrom i n).Nodup := by
  unfold pairsFrom
  rw [List.nodup_flatMap]
  refine ⟨fun j _ => (List.nodup_range').map (fun a b h => by simpa using h), ?_⟩
  refine (List.nodup_range' (s := i + 1) (n := n - (i + 1))).imp ?_
  intro a b hab x hx hy
  obtain ⟨_, _, rfl⟩ := List.mem_map.1 hx
  obtain ⟨_, _, h⟩ := List.mem_map.1 hy
  exact hab (by simpa using (congrArg Prod.fst h).symm)

/-- The invariant: the lower right part of the matrix consists of bordered minors. -/
structure BInv (n : Nat) (d : Int) (a : Nat → Nat → Int) (i : Nat) (m : Mat) (sign prev : Int) : Prop where
  sq : m.Square n
  prev_eq : prev = lead a i
  ne : lead a i ≠ 0
  get_eq : ∀ j l, i ≤ j → j < n → i ≤ l → l < n → m.get j l = bord a i j l
  det_eq : sign * lead a n = d

theorem BInv.elim {n i : Nat} {d : Int} {a : Nat → Nat → Int} {m : Mat} {sign prev : Int} (h : BInv n d a i m sign prev)
    (hi : i < n) (h0 : m.get i i ≠ 0) :
    ∃ m', elimLoop i prev (pairsFrom i n) m = .ok m' ∧ BInv n d a (i + 1) m' sign (m'.get i i) := by
  have hp : prev ≠ 0 := by rw [h.prev_eq]; exact h.ne
  obtain ⟨m', e1, e2, e3⟩ := elimLoop_ok hp (bord a (i + 1)) (pairsFrom i n) m h.sq (nodup_pairsFrom i n)
    (fun _ => mem_pairsFrom.1) (by
      rintro ⟨j, k⟩ hjk
      obtain ⟨r1, r2, r3, r4⟩ := mem_pairsFrom.1 hjk
      simp only at r1 r2 r3 r4 ⊢
      rw [h.get_eq j k (by omega) r2 (by omega) r4, h.get_eq i i (by omega) hi (by omega) hi,
        h.get_eq j i (by omega) r2 (by omega) hi, h.get_eq i k (by omega) hi (by omega) r4, h.prev_eq]
      exact sylvester a i h.ne j k)
  have hd : m'.get i i = lead a (i + 1) := by
    rw [e3, if_neg (by rw [mem_pairsFrom]; simp), h.get_eq i i (by omega) hi (by omega) hi, lead_succ]
  refine ⟨m', e1, e2, hd, ?_, ?_, h.det_eq⟩
  · rw [lead_succ, ← h.get_eq i i (by omega) hi (by omega) hi]; exact h0
  · intro j l h1 h2 h3 h4
    rw [e3, if_pos (mem_pairsFrom.2 ⟨by simp only; omega, h2, by simp only; omega, h4⟩)]

theorem BInv.swap {n i s : Nat} {d : Int} {a : Nat → Nat → Int} {m : Mat} {sign prev : Int} (h : BInv n d a i m sign prev)
    (his : i < s) (hs : s < n) :
    BInv n d (fun j => a (Equiv.swap i s j)) i (m.swap i s) (-sign) prev := by
  have hi : i < n := by omega
  have hlow : ∀ x : Fin i, Equiv.swap i s (x : Nat) = x := fun x => by
    apply Equiv.swap_apply_of_ne_of_ne <;> omega
  have hl : lead (fun j => a (Equiv.swap i s j)) i = lead a i := by
    unfold lead; simp only [hlow]
  have hb : ∀ j l, bord (fun j => a (Equiv.swap i s j)) i j l = bord a i (Equiv.swap i s j) l := by
    intro j l
    unfold bord minor
    congr 1
    ext x y
    rcases x with x | x
    · simp only [Matrix.of_apply, Sum.elim_inl, hlow]
    · rfl
  refine ⟨h.sq.swap hi hs, by rw [hl]; exact h.prev_eq, by rw [hl]; exact h.ne, ?_, ?_⟩
  · intro j l h1 h2 h3 h4
    rw [Mat.get_swap h.sq hi hs, hb]
    have h5 : i ≤ Equiv.swap i s j ∧ Equiv.swap i s j < n := by
      rw [Equiv.swap_apply_def]; split
      · omega
      · split <;> omega
    exact h.get_eq _ l h5.1 h5.2 h3 h4
  · have : lead (fun j => a (Equiv.swap i s j)) n = - lead a n := by
      unfold lead
      have hp := Matrix.det_permute (Equiv.swap (⟨i, hi⟩ : Fin n) ⟨s, hs⟩) (Matrix.of fun x y : Fin n => a x y)
      rw [Equiv.Perm.sign_swap (by intro h; simp only [Fin.mk.injEq] at h; omega)] at hp
      simp only [Units.val_neg, Units.val_one, Int.cast_neg, Int.cast_one, neg_one_mul] at hp
      rw [← hp]
      congr 1
      ext x y
      simp only [Matrix.of_apply, Matrix.submatrix_apply, id]
      congr 1
      rw [Equiv.swap_apply_def, Equiv.swap_apply_def]
      simp only [Fin.ext_iff]
      split
      · rfl
      · split <;> rfl
    rw [this, ← h.det_eq]; ring

theorem bareissLoop_ok (n : Nat) (d : Int) (t : Nat) : ∀ (i : Nat) (a : Nat → Nat → Int) (m : Mat) (sign prev : Int),
    i + t + 1 = n → BInv n d a i m sign prev → bareissLoop n (List.range' i t) m sign prev = .ok d := by
  induction t with
  | zero =>
    intro i a m sign prev hn h
    obtain rfl : n = i + 1 := by omega
    rw [List.range'_zero, bareissLoop, Nat.add_sub_cancel, h.get_eq i i (by omega) (by omega) (by omega) (by omega),
      ← lead_succ, h.det_eq]
  | succ t ih =>
    intro i a m sign prev hn h
    rw [List.range'_succ, bareissLoop]
    split
    · rename_i h0
      split
      · rename_i hf
        rw [List.find?_eq_none] at hf
        have : lead a n = 0 := by
          apply lead_eq_zero a i n (by omega) h.ne
          intro j h1 h2
          rw [← h.get_eq j i h1 h2 (by omega) (by omega)]
          by_cases hj : j = i
          · rw [hj]; exact h0
          · have := hf j (by rw [List.mem_range'_1]; omega)
            simpa using this
        rw [← h.det_eq, this, mul_zero]
      · rename_i s hf
        have hs := List.mem_of_find?_eq_some hf
        rw [List.mem_range'_1] at hs
        have hs0 := List.find?_some hf
        simp only [ne_eq, decide_eq_true_eq] at hs0
        have hsw := h.swap (s := s) (by omega) (by omega)
        obtain ⟨m', e1, e2⟩ := hsw.elim (by omega) (by
          rw [Mat.get_swap h.sq (by omega) (by omega), Equiv.swap_apply_left]; exact hs0)
        rw [e1]
        exact ih (i + 1) _ m' _ _ (by omega) e2
    · rename_i h0
      obtain ⟨m', e1, e2⟩ := h.elim (by omega) h0
      rw [e1]
      exact ih (i + 1) _ m' _ _ (by omega) e2

/-! ## Property C25 -/

/-- **C25.** For every square integer matrix the function returns the determinant (in Mathlib's sense, the Leibniz
formula); in particular every division in it is exact, so the assertion never fails and nothing is divided by zero. -/
theorem C25_integer_determinant (n : Nat) (mat : List (List Int)) (hl : mat.length = n) (hr : ∀ row ∈ mat, row.length = n) :
    integerDeterminant mat = .ok (Matrix.det (Matrix.of fun i j : Fin n => (mat.getD i []).getD j 0)) := by
  subst hl
  unfold integerDeterminant
  split
  · rename_i h0
    have : IsEmpty (Fin mat.length) := by rw [h0]; infer_instance
    rw [Matrix.det_isEmpty]
  · rename_i h0
    rw [List.range_eq_range']
    apply bareissLoop_ok mat.length _ _ 0 (Mat.get mat) mat 1 1 (by omega)
    refine ⟨⟨rfl, hr⟩, (lead_zero _).symm, by rw [lead_zero]; decide, ?_, ?_⟩
    · intro j l _ _ _ _; rw [bord_zero]
    · rw [one_mul]; rfl

/-- With the rows given as a matrix. -/
theorem C25_integer_determinant_matrix {n : Nat} (M : Matrix (Fin n) (Fin n) Int) :
    integerDeterminant (List.ofFn fun i => List.ofFn fun j => M i j) = .ok M.det := by
  rw [C25_integer_determinant n _ (List.length_ofFn) (by
    intro row h
    obtain ⟨i, rfl⟩ := (List.mem_ofFn' _ _).1 h
    exact List.length_ofFn)]
  congr 2
  ext i j
  simp [List.getD_eq_getElem?_getD]

example : integerDeterminant [[0, 2, 1], [3, 0, 5], [1, 1, 4]] = .ok (-11) := by decide
example : integerDeterminant [[1, 2, 3], [2, 4, 6], [0, 0, 1]] = .ok 0 := by decide
example : ∀ row ∈ [[0, 2, 1], [3, 0, 5], [1, 1, (4 : Int)]], row.length = 3 := by decide

end Verif.A
