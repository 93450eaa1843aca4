import Verif.Walsh.Ops

/-! # Operations on `WalshPerm` objects -/

namespace Verif.W
open Verif.Py Verif.BV Verif.P
open Verif.A hiding Mat
open Verif.SG (Mat)

/-! ## what the constructor returns -/

theorem mapM_ok_all {α β ε : Type} {f : α → Except ε β} {l : List α} {r : List β} (h : l.mapM f = .ok r) : ∀ a ∈ l, ∃ b, f a = .ok b := by
  induction l generalizing r with
  | nil => intro a ha; cases ha
  | cons x l ih =>
    rw [List.mapM_cons] at h
    cases hx : f x with
    | error e => rw [hx] at h; cases h
    | ok b =>
      rw [hx] at h
      cases hl : l.mapM f with
      | error e => rw [hl] at h; cases h
      | ok bs =>
        intro a ha
        rcases List.mem_cons.1 ha with rfl | ha
        · exact ⟨b, hx⟩
        · exact ih hl a ha

theorem bin_of_matrixToVector {N c : Nat} {g : Nat → Nat → Int} {l : List Nat} (h : matrixToVector ⟨N, c, g⟩ = .ok l) : Bin N g := by
  intro i hi j hj
  unfold matrixToVector at h
  obtain ⟨b, hb⟩ := mapM_ok_all h j (List.mem_range.2 hj)
  by_contra hc
  push Not at hc
  have := (C26_vector ((List.range N).map fun k => g k j) []).2.1 ⟨g i j, List.mem_map.2 ⟨i, List.mem_range.2 hi, rfl⟩, hc⟩
  simp only [Bool.false_eq_true, if_false] at hb
  rw [this] at hb
  cases hb

theorem valid_neutral : Valid neutralWalsh 0 (fun i j => decide (i = j)) :=
  ⟨rep_neutral (fun _ _ _ => rfl), isUnit_of_subsingleton _⟩

theorem newMatrix_ok {m : Mat} {w : Walsh} (h : newMatrix m = .ok w) : ∃ d B, Valid w d B := by
  obtain ⟨r, c, g⟩ := m
  have h' := h
  unfold newMatrix at h
  cases hs : shrinkMatrix ⟨r, c, g⟩ with
  | error e => rw [hs] at h; cases h
  | ok o =>
    rw [hs] at h
    cases o with
    | none => cases h; exact ⟨_, _, valid_neutral⟩
    | some md =>
      obtain ⟨mm, d⟩ := md
      simp only at h
      have hrc : r = c := by
        unfold shrinkMatrix at hs
        simp only at hs
        by_contra hc
        rw [if_neg hc] at hs
        split at hs <;> cases hs
      subst hrc
      cases hv : matrixToVector ⟨r, r, g⟩ with
      | error e => rw [hv] at h; cases h
      | ok v =>
        have hb := bin_of_matrixToVector hv
        rcases newMatrix_spec hb false with ⟨h1, h2⟩ | ⟨d, w', h1, h2, h3, h4⟩
        · rw [h2] at h'; cases h'; exact ⟨_, _, valid_neutral⟩
        · rw [h4] at h'
          by_cases hu : IsUnit (MB d (matB r g))
          · rw [if_pos (Or.inr hu)] at h'
            cases h'
            exact ⟨d, _, h3, hu⟩
          · rw [if_neg (by rintro (h | h); cases h; exact hu h)] at h'
            cases h'

/-- A `WalshPerm` object that the constructor returns (without `trust`). -/
def Constructed (w : Walsh) : Prop := ∃ a : Args, a.trust = false ∧ new a = .ok w

theorem Constructed.valid {w : Walsh} (h : Constructed w) : ∃ d B, Valid w d B := by
  obtain ⟨⟨v, m, p, t⟩, ht, h⟩ := h
  simp only at ht
  subst ht
  unfold new at h
  cases v with
  | none =>
    cases m with
    | none =>
      cases p with
      | none => cases h; exact ⟨_, _, valid_neutral⟩
      | some p =>
        simp only at h
        unfold newPerm at h
        cases hp : permToMatrix p with
        | error e => rw [hp] at h; cases h
        | ok o =>
          rw [hp] at h
          cases o with
          | none => cases h; exact ⟨_, _, valid_neutral⟩
          | some m => exact newMatrix_ok h
    | some m =>
      cases p with
      | none => exact newMatrix_ok h
      | some p => cases h
  | some v =>
    cases m with
    | none =>
      cases p with
      | none =>
        simp only at h
        unfold newVector at h
        cases hp : vectorToMatrix v with
        | error e => rw [hp] at h; cases h
        | ok o =>
          rw [hp] at h
          cases o with
          | none => cases h; exact ⟨_, _, valid_neutral⟩
          | some m => exact newMatrix_ok h
      | some p => cases h
    | some m => cases p <;> cases h

theorem Valid.constructed {w : Walsh} {d : Nat} {B : Nat → Nat → Bool} (h : Valid w d B) : Constructed w := by
  by_cases hd : d = 0
  · rw [h.1.zero hd]
    exact ⟨{}, rfl, rfl⟩
  · refine ⟨{ matrix := some w.matrixMinimal }, rfl, ?_⟩
    obtain ⟨⟨_, h1, h2, h3, h4, h5, h6, h7, h8, h9, h10⟩, hu⟩ := h
    obtain ⟨n, dd, ⟨r, c, g⟩, v, tv⟩ := w
    simp only at h1 h2 h6 h7 h8 h9 h10
    subst h1
    have h6 := h6.symm
    have h7 := h7.symm
    subst h6
    subst h7
    subst h9
    subst h10
    have hb : Bin dd g := by
      intro i hi j hj
      rw [h8 i hi j hj]
      split
      · exact Or.inr rfl
      · exact Or.inl rfl
    have hB : matB dd g = B := by
      funext i j
      unfold matB
      by_cases hij : i < dd ∧ j < dd
      · rw [if_pos hij, h8 i hij.1 j hij.2]
        cases B i j <;> rfl
      · rw [if_neg hij, h4 i j (by omega)]
    show newMatrix ⟨dd, dd, g⟩ = _
    rcases newMatrix_spec hb false with ⟨e1, e2⟩ | ⟨dd', w', e1, e2, e3, e4⟩
    · rw [hB] at e1
      have := h5 1 e1
      omega
    · rw [hB] at e3 e4
      have hdd : dd' = dd := le_antisymm (e3.minimal _ h4) (h5 _ e3.outside)
      subst hdd
      have hn : n = false := by rw [h2]; simpa using hd
      subst hn
      -- the stored matrix is the given one
      have : newMatrix ⟨dd', dd', g⟩ = .ok ⟨false, dd', ⟨dd', dd', g⟩, vecD dd' fun k => act dd' B (2 ^ k), vecD dd' fun k => act dd' (tr B) (2 ^ k)⟩ := by
        have hN : dd' * dd' > 1 := by
          have : 2 * 2 ≤ dd' * dd' := Nat.mul_le_mul (by omega) (by omega)
          omega
        have hsh : shrinkLoop ⟨dd', dd', g⟩ dd' = some dd' := by
          rcases shrinkLoop_spec (c := dd') (c' := dd') hb dd' le_rfl (outside_matB dd' g) with ⟨f1, f2⟩ | ⟨d2, f1, f2, f3, f4, f5⟩
          · rw [hB] at f2
            have := h5 1 f2
            omega
          · rw [hB] at f4 f5
            have : d2 = dd' := le_antisymm f3 (h5 _ f4)
            rw [f1, this]
        rw [if_pos (Or.inr hu)] at e4
        unfold newMatrix shrinkMatrix
        simp only
        rw [if_pos hN, if_pos trivial, hsh]
        simp only
        rw [matrixToVector_spec hb, matrixToVector_spec hb, hB]
        simp only [if_true, Bool.false_eq_true, if_false]
        rw [ofList_map, ofList_map]
        have hrep : Rep ⟨false, dd', ⟨dd', dd', g⟩, vecD dd' fun k => act dd' B (2 ^ k), vecD dd' fun k => act dd' (tr B) (2 ^ k)⟩ dd' B :=
          ⟨by omega, rfl, h2, h3, h4, h5, rfl, rfl, h8, rfl, rfl⟩
        obtain ⟨p, _, _, _, _, _, hm⟩ := hrep.asPerm hu
        rw [hm]
      rw [this]

/-! ## identity, uniqueness -/

theorem act_congr {n : Nat} {A B : Nat → Nat → Bool} (h : ∀ i < n, ∀ j < n, A i j = B i j) : act n A = act n B := by
  funext x
  apply Nat.eq_of_testBit_eq
  intro j
  rw [testBit_act, testBit_act]
  by_cases hj : j < n
  · rw [if_pos hj, if_pos hj]
    apply bsum_congr
    intro k hk
    rw [h j hj k hk]
  · rw [if_neg hj, if_neg hj]

theorem act_one (n x : Nat) : act n (fun i j => decide (i = j)) x = x := by
  apply Nat.eq_of_testBit_eq
  intro j
  rw [testBit_act]
  by_cases hj : j < n
  · rw [if_pos hj, bsum_single hj (fun i _ h => by simp [Ne.symm h])]
    simp
  · rw [if_neg hj]

theorem MB_eq_one {n : Nat} {B : Nat → Nat → Bool} (h : MB n B = 1) : ∀ x, act n B x = x := by
  intro x
  rw [act_congr (B := fun i j => decide (i = j)), act_one]
  intro i hi j hj
  have := congrFun (congrFun h ⟨i, hi⟩) ⟨j, hj⟩
  unfold MB at this
  rw [Matrix.of_apply, Matrix.one_apply] at this
  simp only [Fin.mk.injEq] at this
  by_cases hij : i = j
  · rw [if_pos hij] at this
    simpa [hij] using zb_inj.1 (this.trans zb_true.symm)
  · rw [if_neg hij] at this
    simpa [hij] using zb_inj.1 (this.trans zb_false.symm)

/-- the matrix seen in any sufficient size -/
theorem Valid.act_eq {w : Walsh} {d n : Nat} {B : Nat → Nat → Bool} (h : Valid w d B) (ho : Outside n B) : act d B = act n B := by
  funext x
  rw [act_mono h.1.outside (h.1.minimal _ ho)]

theorem outside_eq {n : Nat} {A B : Nat → Nat → Bool} (hA : Outside n A) (hB : Outside n B) (h : act n A = act n B) : A = B := by
  funext i j
  by_cases hij : n ≤ i ∨ n ≤ j
  · rw [hA i j hij, hB i j hij]
  · exact act_ext (fun k _ => by rw [h]) i (by omega) j (by omega)

theorem Valid.unique {w v : Walsh} {d e : Nat} {B C : Nat → Nat → Bool} (h : Valid w d B) (h' : Valid v e C) (hf : act d B = act e C) :
    d = e ∧ B = C := by
  have h1 : Outside (max d e) B := h.1.outside.mono (by omega)
  have h2 : Outside (max d e) C := h'.1.outside.mono (by omega)
  rw [h.act_eq h1, h'.act_eq h2] at hf
  have := outside_eq h1 h2 hf
  subst this
  exact ⟨le_antisymm (h.1.minimal _ h'.1.outside) (h'.1.minimal _ h.1.outside), rfl⟩

/-! ## matrices and products -/

theorem Valid.matrix {w : Walsh} {d n : Nat} {B : Nat → Nat → Bool} (h : Valid w d B) (hn : d ≤ n) :
    ∃ g, w.matrix (some n) = .ok ⟨n, n, g⟩ ∧ ∀ i < n, ∀ j < n, g i j = if B i j then 1 else 0 := by
  refine ⟨_, by unfold Walsh.matrix; rw [Option.getD_some, h.1.deg]; exact if_pos hn, ?_⟩
  intro i _ j _
  by_cases hij : i < d ∧ j < d
  · rw [if_pos hij]
    exact h.1.entry i hij.1 j hij.2
  · rw [if_neg hij, h.1.outside i j (by omega)]
    simp

theorem sum_mod_two (n : Nat) (f g : Nat → Bool) :
    ((List.range n).map fun k => (if f k then (1 : Int) else 0) * (if g k then 1 else 0)).sum % 2 = if bsum n (fun k => f k && g k) then 1 else 0 := by
  induction n with
  | zero => rfl
  | succ n ih =>
    rw [List.range_succ, List.map_append, List.sum_append, bsum]
    simp only [List.map_cons, List.map_nil, List.sum_cons, List.sum_nil]
    revert ih
    cases bsum n (fun k => f k && g k) <;> cases f n <;> cases g n <;> simp <;> omega

theorem mul_spec {a b : Walsh} {d e : Nat} {A B : Nat → Nat → Bool} (ha : Valid a d A) (hb : Valid b e B) :
    ∃ c d' C, a.mul b = .ok c ∧ Valid c d' C ∧ ∀ x, act d' C x = act d A (act e B x) := by
  obtain ⟨f, f1, f2⟩ := ha.matrix (n := max d e) (by omega)
  obtain ⟨g, g1, g2⟩ := hb.matrix (n := max d e) (by omega)
  have hoA : Outside (max d e) A := ha.1.outside.mono (by omega)
  have hoB : Outside (max d e) B := hb.1.outside.mono (by omega)
  unfold Walsh.mul
  simp only [bind, Except.bind, ha.1.deg, hb.1.deg, f1, g1]
  have hent : ∀ i < max d e, ∀ j < max d e, (Mat.dot ⟨max d e, max d e, f⟩ ⟨max d e, max d e, g⟩).get i j % 2 =
      if mulB (max d e) A B i j then 1 else 0 := by
    intro i hi j hj
    unfold Mat.dot mulB
    simp only
    rw [← sum_mod_two]
    congr 2
    apply List.map_congr_left
    intro k hk
    rw [f2 i hi k (List.mem_range.1 hk), g2 k (List.mem_range.1 hk) j hj]
  have hbin : Bin (max d e) (fun i j => (Mat.dot ⟨max d e, max d e, f⟩ ⟨max d e, max d e, g⟩).get i j % 2) := by
    intro i hi j hj
    simp only
    rw [hent i hi j hj]
    split
    · exact Or.inr rfl
    · exact Or.inl rfl
  have hmat : ∀ i < max d e, ∀ j < max d e,
      matB (max d e) (fun i j => (Mat.dot ⟨max d e, max d e, f⟩ ⟨max d e, max d e, g⟩).get i j % 2) i j = mulB (max d e) A B i j := by
    intro i hi j hj
    unfold matB
    rw [if_pos ⟨hi, hj⟩]
    simp only [hent i hi j hj]
    cases mulB (max d e) A B i j <;> rfl
  have hMB : MB (max d e) (matB (max d e) (fun i j => (Mat.dot ⟨max d e, max d e, f⟩ ⟨max d e, max d e, g⟩).get i j % 2)) =
      MB (max d e) A * MB (max d e) B := by
    rw [← MB_mulB]
    ext i j
    simp only [MB, Matrix.of_apply]
    rw [hmat i i.2 j j.2]
  obtain ⟨c, d', h1, h2⟩ := newMatrix_unit hbin false (by
    rw [hMB]
    exact ((isUnit_mono ha.1.outside (by omega)).2 ha.2).mul ((isUnit_mono hb.1.outside (by omega)).2 hb.2))
  refine ⟨c, d', _, h1, h2, fun x => ?_⟩
  rw [h2.act_eq (outside_matB _ _), act_congr hmat, act_mulB, ha.act_eq hoA, hb.act_eq hoB]

/-! ## transpose -/

theorem MB_tr (n : Nat) (B : Nat → Nat → Bool) : MB n (tr B) = (MB n B).transpose := rfl

theorem transpose_spec {w : Walsh} {d : Nat} {B : Nat → Nat → Bool} (h : Valid w d B) : ∃ v, w.transpose = .ok v ∧ Valid v d (tr B) := by
  unfold Walsh.transpose Walsh.transposeVector
  simp only [bind, Except.bind, Option.getD_none, h.1.deg, ge_iff_le, le_refl, if_true]
  rw [h.1.tvec, extend_vecD _ (le_refl d)]
  simp only
  have hl : ∀ x ∈ ((List.range d).map fun k => if k < d then act d (tr B) (2 ^ k) else 2 ^ k),
      x < 2 ^ ((List.range d).map fun k => if k < d then act d (tr B) (2 ^ k) else 2 ^ k).length := by
    intro x hx
    obtain ⟨k, hk, rfl⟩ := List.mem_map.1 hx
    have hk := List.mem_range.1 hk
    rw [if_pos hk, List.length_map, List.length_range]
    exact act_lt _ le_rfl (Nat.pow_lt_pow_right (by omega) hk)
  have hB : colB ((List.range d).map fun k => if k < d then act d (tr B) (2 ^ k) else 2 ^ k) = tr B := by
    have h1 := colB_ge hl
    rw [List.length_map, List.length_range] at h1
    apply outside_eq h1 h.1.outside.tr
    apply act_congr
    apply act_ext
    intro k hk
    rw [act_colB _ (by simpa using hk) (by simp)]
    · simp [hk]
    · intro x hx
      have := hl x hx
      rwa [List.length_map, List.length_range] at this
  have hu : IsUnit (MB d (tr B)) := by rw [MB_tr]; exact (Matrix.isUnit_transpose _).2 h.2
  obtain ⟨v, d', h1, h2⟩ := newVector_unit hl false (by rw [hB, List.length_map, List.length_range]; exact hu)
  rw [hB] at h2
  refine ⟨v, h1, ?_⟩
  have : d' = d := le_antisymm (h2.1.minimal _ h.1.outside.tr) (h.1.minimal _ (outside_tr.1 h2.1.outside))
  rwa [this] at h2

/-! ## determinant and inverse -/

theorem cast_intMatrix {w : Walsh} {B : Nat → Nat → Bool} (h : Rep w w.degree B) :
    (Int.castRingHom (ZMod 2)).mapMatrix w.intMatrix = MB w.degree B := by
  ext i j
  simp only [RingHom.mapMatrix_apply, Matrix.map_apply, Walsh.intMatrix, Matrix.of_apply, MB]
  rw [h.entry i i.2 j j.2]
  cases B i j <;> simp

theorem det_cast {w : Walsh} {B : Nat → Nat → Bool} (h : Rep w w.degree B) :
    ((w.intMatrix.det : Int) : ZMod 2) = (MB w.degree B).det := by
  rw [← cast_intMatrix h, ← RingHom.map_det]; rfl

theorem isUnit_iff_odd {w : Walsh} {B : Nat → Nat → Bool} (h : Rep w w.degree B) : IsUnit (MB w.degree B) ↔ w.intMatrix.det % 2 = 1 := by
  rw [Matrix.isUnit_iff_isUnit_det, ← det_cast h]
  have key : ∀ z : Int, IsUnit ((z : Int) : ZMod 2) ↔ z % 2 = 1 := by
    intro z
    have h2 : ∀ u : ZMod 2, IsUnit u ↔ u = 1 := by
      intro u
      rw [isUnit_iff_ne_zero]
      revert u
      decide
    rw [h2]
    have : ((1 : Int) : ZMod 2) = 1 := by simp
    rw [← this, ZMod.intCast_eq_intCast_iff]
    unfold Int.ModEq
    simp
  exact key _

theorem determinant_eq {w : Walsh} {B : Nat → Nat → Bool} (h : Rep w w.degree B) : w.determinant = .ok w.intMatrix.det := by
  unfold Walsh.determinant
  rw [C25_integer_determinant w.degree _ (by simp [h.rows]) (by
    intro row hrow
    obtain ⟨i, _, rfl⟩ := List.mem_map.1 hrow
    simp [h.cols])]
  congr 2
  ext i j
  simp [Walsh.intMatrix, List.getD_eq_getElem?_getD, h.rows, h.cols]

theorem exists_inverse {n : Nat} {B : Nat → Nat → Bool} (h : IsUnit (MB n B)) :
    ∃ G, (∀ x, act n B (act n G x) = x) ∧ (∀ x, act n G (act n B x) = x) := by
  obtain ⟨u, hu⟩ := h
  have hz : ∀ z : ZMod 2, ∃ b, zb b = z := zb_surj
  choose f hf using hz
  refine ⟨fun i j => if hij : i < n ∧ j < n then f ((u⁻¹ : (Matrix (Fin n) (Fin n) (ZMod 2))ˣ).1 ⟨i, hij.1⟩ ⟨j, hij.2⟩) else false, ?_, ?_⟩
  all_goals
    intro x
    rw [← act_mulB]
    apply MB_eq_one
    rw [MB_mulB, ← hu]
    have e : MB n (fun i j => if hij : i < n ∧ j < n then f ((u⁻¹ : (Matrix (Fin n) (Fin n) (ZMod 2))ˣ).1 ⟨i, hij.1⟩ ⟨j, hij.2⟩) else false) =
        (u⁻¹ : (Matrix (Fin n) (Fin n) (ZMod 2))ˣ).1 := by
      ext i j
      simp only [MB, Matrix.of_apply, i.2, j.2, and_self, dite_true, hf]
    rw [e]
    simp

/-- The branch of `inverse` that uses the cycles -/
theorem inversePerm_spec {w : Walsh} {B : Nat → Nat → Bool} (h : Valid w w.degree B) (hd0 : w.degree ≠ 0) :
    ∃ v e C, (do
      let perm ← mkPerm (.cycles (← w.cycles)) w.perilen
      newPerm (.perm (← perm.inverse)) true) = .ok v ∧ Valid v e C ∧ (∀ x, act w.degree B (act e C x) = x) ∧ (∀ x, act e C (act w.degree B x) = x) := by
  obtain ⟨p, p1, p2, p3, p4, p5, _⟩ := h.asPerm
  rw [if_neg hd0] at p4
  obtain ⟨cs, c1, c2, _⟩ := C10_cycles p p2
  have hper : w.perilen = p.perilen := by
    unfold Walsh.perilen
    rw [h.1.neut, p4]
    simp [hd0]
  obtain ⟨q, q', q1, q2, q3⟩ := C10_roundtrip p p2
  cases q2
  rw [c1] at q1
  have q1 : mkPerm (.cycles cs) p.perilen = .ok q := q1
  have hq : P.Constructed q := ⟨.cycles cs, _, c2, q1⟩
  have qget : q.get = p.get := funext ((C05_eq_extensional q p hq p2).1 q3)
  obtain ⟨r, r1, r2, r3, _, r5, r6⟩ := P.inverse_spec hq
  have rper : r.perilen = some (2 ^ w.degree) := by
    rw [r3, hq.wf.perilen_eq_of_get p2.wf qget, p4]
  unfold Walsh.cycles
  simp only [bind, Except.bind, p1, c1, hper, q1, r1]
  -- the values of the inverse permutation
  obtain ⟨G, G1, G2⟩ := exists_inverse h.2
  have rget : ∀ x, r.get x = act w.degree G x := by
    intro x
    have : q.get (act w.degree G x) = x := by rw [qget, p3, G1]
    rw [← this, r5, this]
  have hseq : r.sequence = .ok ((List.range (2 ^ w.degree)).map (act w.degree G)) := by
    have e := C11_sequence_default r
    rw [rper] at e
    simp only at e
    rw [e, ((C11_sequence r _).2 _ rper).1 (dvd_refl _)]
    congr 1
    exact List.map_congr_left fun x _ => rget x
  have hlen : ((List.range (2 ^ w.degree)).map (act w.degree G)).length = 2 ^ w.degree := by simp
  have hget : ∀ x < 2 ^ w.degree, ((List.range (2 ^ w.degree)).map (act w.degree G))[x]? = some (act w.degree G x) := by
    intro x hx
    rw [List.getElem?_map, List.getElem?_range hx]; rfl
  have hinj : Function.Injective (act w.degree G) := Function.LeftInverse.injective G1
  have hp : ((List.range (2 ^ w.degree)).map (act w.degree G)).Perm (List.range ((List.range (2 ^ w.degree)).map (act w.degree G)).length) := by
    rw [hlen]
    exact (perm_map_of_inj List.nodup_range (fun i _ j _ hij => hinj hij)
      (fun i hi => List.mem_range.2 (act_lt G le_rfl (List.mem_range.1 hi)))).symm
  have hlin : LinearList w.degree ((List.range (2 ^ w.degree)).map (act w.degree G)) := by
    intro i hi j hj a b ha hb
    rw [hget i hi] at ha
    rw [hget j hj] at hb
    cases ha; cases hb
    rw [hget _ (Nat.xor_lt_two_pow hi hj), act_xor]
  obtain ⟨v, e, v1, v2⟩ := (newPerm_seq hlen hp (.perm r) hseq true).1 hlin
  have hact : act e (permB w.degree ((List.range (2 ^ w.degree)).map (act w.degree G))) = act w.degree G := by
    rw [v2.act_eq (outside_permB _ _)]
    apply act_congr
    apply act_ext
    intro k hk
    have hk2 : 2 ^ k < 2 ^ w.degree := Nat.pow_lt_pow_right (by omega) hk
    rw [act_permB hlen (fun x hx => by
      obtain ⟨y, hy, rfl⟩ := List.mem_map.1 hx
      exact act_lt G le_rfl (List.mem_range.1 hy)) hlin (by simpa using hk2)]
    simp
  refine ⟨v, e, _, v1, v2, ?_, ?_⟩
  · intro x; rw [hact, G1]
  · intro x; rw [hact, G2]

theorem inverse_spec {w : Walsh} {d : Nat} {B : Nat → Nat → Bool} (h : Valid w d B) :
    ∃ v e C, w.inverse = .ok v ∧ Valid v e C ∧ (∀ x, act d B (act e C x) = x) ∧ (∀ x, act e C (act d B x) = x) := by
  have hd := h.1.deg
  subst hd
  have hodd := (isUnit_iff_odd h.1).1 h.2
  have hdet : w.intMatrix.det ≠ 0 := by omega
  unfold Walsh.inverse
  simp only
  rw [if_neg hdet]
  by_cases hdiv : ∀ i j, w.intMatrix.det ∣ w.intMatrix.adjugate i j
  · rw [if_pos hdiv]
    -- the inverse has integer entries
    have hmul : w.intMatrix * (Matrix.of fun i j => w.intMatrix.adjugate i j / w.intMatrix.det) = 1 := by
      have h1 : w.intMatrix.det • (Matrix.of fun i j => w.intMatrix.adjugate i j / w.intMatrix.det) = w.intMatrix.adjugate := by
        ext i j
        rw [Matrix.smul_apply, Matrix.of_apply, smul_eq_mul, Int.mul_ediv_cancel' (hdiv i j)]
      have h2 := w.intMatrix.mul_adjugate
      rw [← h1, Matrix.mul_smul] at h2
      ext i j
      have := congrFun (congrFun h2 i) j
      rw [Matrix.smul_apply, Matrix.smul_apply, smul_eq_mul, smul_eq_mul] at this
      exact Int.eq_of_mul_eq_mul_left hdet this
    have hbin : Bin w.degree (fun i j => if hij : i < w.degree ∧ j < w.degree then
        w.intMatrix.adjugate ⟨i, hij.1⟩ ⟨j, hij.2⟩ / w.intMatrix.det % 2 else 0) := by
      intro i hi j hj
      simp only
      rw [dif_pos ⟨hi, hj⟩]
      omega
    have hMB : MB w.degree B * MB w.degree (matB w.degree (fun i j => if hij : i < w.degree ∧ j < w.degree then
        w.intMatrix.adjugate ⟨i, hij.1⟩ ⟨j, hij.2⟩ / w.intMatrix.det % 2 else 0)) = 1 := by
      rw [← cast_intMatrix h.1]
      have e : MB w.degree (matB w.degree (fun i j => if hij : i < w.degree ∧ j < w.degree then
          w.intMatrix.adjugate ⟨i, hij.1⟩ ⟨j, hij.2⟩ / w.intMatrix.det % 2 else 0)) =
          (Int.castRingHom (ZMod 2)).mapMatrix (Matrix.of fun i j => w.intMatrix.adjugate i j / w.intMatrix.det) := by
        ext i j
        simp only [MB, Matrix.of_apply, matB, i.2, j.2, and_self, if_true, dite_true, RingHom.mapMatrix_apply, Matrix.map_apply]
        generalize w.intMatrix.adjugate ⟨i, i.2⟩ ⟨j, j.2⟩ / w.intMatrix.det = z
        have hz : ((z : Int) : ZMod 2) = ((z % 2 : Int) : ZMod 2) := by
          rw [ZMod.intCast_eq_intCast_iff]; unfold Int.ModEq; simp
        show _ = ((z : Int) : ZMod 2)
        rw [hz]
        rcases (by omega : z % 2 = 0 ∨ z % 2 = 1) with hz | hz <;> rw [hz] <;> simp
      rw [e, ← map_mul, hmul, map_one]
    have hMB' := mul_eq_one_comm.1 hMB
    have hu : IsUnit (MB w.degree (matB w.degree (fun i j => if hij : i < w.degree ∧ j < w.degree then
        w.intMatrix.adjugate ⟨i, hij.1⟩ ⟨j, hij.2⟩ / w.intMatrix.det % 2 else 0))) := ⟨⟨_, _, hMB', hMB⟩, rfl⟩
    obtain ⟨v, e, h1, h2⟩ := newMatrix_unit hbin true hu
    refine ⟨v, e, _, h1, h2, ?_, ?_⟩
    · intro x
      rw [h2.act_eq (outside_matB _ _), ← act_mulB]
      apply MB_eq_one
      rw [MB_mulB, hMB]
    · intro x
      rw [h2.act_eq (outside_matB _ _), ← act_mulB]
      apply MB_eq_one
      rw [MB_mulB, hMB']
  · rw [if_neg hdiv]
    exact inversePerm_spec h (fun h0 => hdiv fun i => by have := i.2; omega)

end Verif.W
