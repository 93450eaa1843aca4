import Verif.SigPerm.Props

/-!
# C32, C33: product and inverse of signed permutations, action on vectors and numbers
-/

namespace Verif.SG
open Verif.Py Verif.P Verif.BV Verif.A

/-- The signed permutation applied to a signed number: `~n` is sent to the negation of what `n` is sent to. -/
def SigPerm.apply (s : SigPerm) (z : Int) : Int := if z < 0 then inv (s.value (inv z).toNat) else s.value z.toNat

theorem apply_eq {s : SigPerm} (h : WF s) (z : Int) : s.apply z = ext s.val z := by
  unfold SigPerm.apply ext nabs logicAbs
  split <;> rw [value_eq h]

theorem ext_neg (f : Nat → Int) (z : Int) : ext f z < 0 ↔ (z < 0 ↔ ¬ f (nabs z) < 0) := by
  unfold ext
  by_cases h : z < 0
  · rw [if_pos h, inv_neg]; simp [h]
  · rw [if_neg h]; simp [h]

theorem matEntry_comp {f g : Nat → Int} {N : Nat} (hg : Signed g N) {i j : Nat} (hj : j < N) :
    ((List.range N).map (fun k => matEntry f i k * matEntry g k j)).sum = matEntry (fun i => ext f (g i)) i j := by
  rw [sum_single (hg.lt j hj)]
  · unfold matEntry
    rw [if_pos rfl]
    simp only [nabs_ext]
    by_cases e : nabs (f (nabs (g j))) = i
    · rw [if_pos e, if_pos e]
      by_cases h1 : g j < 0 <;> by_cases h2 : f (nabs (g j)) < 0 <;> simp [ext_neg, h1, h2]
    · rw [if_neg e, if_neg e]; simp
  · intro k hk hne
    have : matEntry g k j = 0 := by
      unfold matEntry
      rw [if_neg (fun e => hne e.symm)]
    rw [this]; simp

theorem mul_spec {s t : SigPerm} (hs : WF s) (ht : WF t) :
    ∃ u, s.mul t = .ok u ∧ WF u ∧ Canon u ∧ Finite u ∧ u.val = fun i => ext s.val (t.val i) := by
  have hS := hs.signed.mono (Nat.le_max_left s.length t.length)
  have hT := ht.signed.mono (Nat.le_max_right s.length t.length)
  obtain ⟨a, a1, a2, a3, a4⟩ := matrix_spec hs (Nat.le_max_left s.length t.length)
  obtain ⟨b, b1, b2, b3, b4⟩ := matrix_spec ht (Nat.le_max_right s.length t.length)
  obtain ⟨u, u1, u2, u3, u4, u5⟩ := new_matrix_spec (hS.comp hT) (a.dot b) a2 b3 (by
    intro i j hi hj
    rw [← matEntry_comp hT hj]
    show ((List.range a.cols).map (fun k => a.get i k * b.get k j)).sum = _
    rw [a3]
    congr 1
    apply List.map_congr_left
    intro k hk
    rw [List.mem_range] at hk
    rw [a4 i k hi hk, b4 k j hk hj])
  refine ⟨u, ?_, u2, u3, u5, u4⟩
  unfold SigPerm.mul
  simp only [a1, b1, bind, Except.bind]
  exact u1

theorem inverse_spec {s : SigPerm} (hs : WF s) :
    ∃ u, s.inverse = .ok u ∧ WF u ∧ Canon u ∧ Finite u ∧ (∀ i : Nat, ext u.val (s.val i) = i) ∧ (∀ i : Nat, ext s.val (u.val i) = i) := by
  obtain ⟨g, g1, g2⟩ := hs.signed.exists_inverse
  obtain ⟨a, a1, a2, a3, a4⟩ := matrix_spec hs (Nat.le_refl _)
  have hg : ∀ i j, nabs (s.val i) = j ↔ nabs (g j) = i := by
    intro i j
    constructor
    · rintro rfl
      have := (g2 i).1
      have h2 := congrArg nabs this
      rwa [nabs_ext, nabs_nat] at h2
    · rintro rfl
      have := (g2 j).2
      have h2 := congrArg nabs this
      rwa [nabs_ext, nabs_nat] at h2
  have hgs : ∀ i j, nabs (s.val i) = j → (s.val i < 0 ↔ g j < 0) := by
    rintro i _ rfl
    have := (g2 i).1
    unfold ext at this
    by_cases h : s.val i < 0
    · rw [if_pos h] at this
      simp only [h, true_iff]
      unfold inv at this; omega
    · rw [if_neg h] at this
      simp only [h, false_iff]
      omega
  obtain ⟨u, u1, u2, u3, u4, u5⟩ := new_matrix_spec g1 a.transpose a3 a2 (by
    intro i j hi hj
    show a.get j i = _
    rw [a4 j i hj hi]
    unfold matEntry
    by_cases e : nabs (s.val i) = j
    · rw [if_pos e, if_pos ((hg i j).1 e)]
      by_cases h : s.val i < 0
      · rw [if_pos h, if_pos ((hgs i j e).1 h)]
      · rw [if_neg h, if_neg (fun h' => h ((hgs i j e).2 h'))]
    · rw [if_neg e, if_neg (fun e' => e ((hg i j).2 e'))])
  refine ⟨u, ?_, u2, u3, u5, by rw [u4]; exact fun i => (g2 i).1, by rw [u4]; exact fun i => (g2 i).2⟩
  unfold SigPerm.inverse
  have : s.matrix = s.matrix (some s.length) := by
    unfold SigPerm.matrix
    simp only
    rw [if_pos (Nat.le_refl _)]
  simp only [this, a1, bind, Except.bind]
  exact u1

/-! ### C32 -/

/-- **C32.** `s * t` is the signed permutation that first applies `t` and then `s`; its negator has the length of the product. -/
theorem C32_product (s t : SigPerm) (hs : Finite s) (ht : Finite t) :
    ∃ u, s.mul t = .ok u ∧ Finite u ∧ u.binv.length = u.length ∧ (∀ i, u.value i = s.apply (t.value i)) ∧
      ∀ z, u.apply z = s.apply (t.apply z) := by
  obtain ⟨u, u1, u2, u3, u4, u5⟩ := mul_spec hs.wf ht.wf
  refine ⟨u, u1, u4, u3, ?_, ?_⟩
  · intro i
    rw [value_eq u2, u5, apply_eq hs.wf, value_eq ht.wf]
  · intro z
    rw [apply_eq u2, u5, apply_eq hs.wf, apply_eq ht.wf, ext_comp]

example : (new { sequence := some [-3, 0, 1] }).bind (fun s => (new { sequence := some [0, -2] }).bind (s.mul ·)) =
    new { sequence := some [-3, -1, 1] } := by decide

/-- **C32.** The product is associative: `(s * t) * r == s * (t * r)`. -/
theorem C32_associative (s t r : SigPerm) (hs : Finite s) (ht : Finite t) (hr : Finite r) :
    ∃ st tr x y, s.mul t = .ok st ∧ t.mul r = .ok tr ∧ st.mul r = .ok x ∧ s.mul tr = .ok y ∧ x.eq y = true := by
  obtain ⟨st, a1, a2, a3, a4, a5⟩ := mul_spec hs.wf ht.wf
  obtain ⟨tr, b1, b2, b3, b4, b5⟩ := mul_spec ht.wf hr.wf
  obtain ⟨x, x1, x2, x3, x4, x5⟩ := mul_spec a2 hr.wf
  obtain ⟨y, y1, y2, y3, y4, y5⟩ := mul_spec hs.wf b2
  refine ⟨st, tr, x, y, a1, b1, x1, y1, (eq_iff x2 y2 x3 y3).2 ?_⟩
  rw [x5, y5]
  funext i
  rw [a5, b5, ext_comp]

/-- **C32.** The neutral element: multiplying with a neutral signed permutation does not change the entries. -/
theorem C32_neutral (s e : SigPerm) (hs : Finite s) (he : Finite e) (hn : e.neutral = true) :
    ∃ x y, s.mul e = .ok x ∧ e.mul s = .ok y ∧ (∀ i, x.value i = s.value i) ∧ (∀ i, y.value i = s.value i) ∧
      (s.binv.length = s.length → x.eq s = true ∧ y.eq s = true) := by
  obtain ⟨x, x1, x2, x3, x4, x5⟩ := mul_spec hs.wf he.wf
  obtain ⟨y, y1, y2, y3, y4, y5⟩ := mul_spec he.wf hs.wf
  have hev : e.val = fun i : Nat => (i : Int) := funext (he.wf.neutral_iff.1 hn)
  have hx : x.val = s.val := by rw [x5, hev]; funext i; simp only [ext_nat]
  have hy : y.val = s.val := by rw [y5, hev]; funext i; simp only [ext_id]
  exact ⟨x, y, x1, y1, fun i => by rw [value_eq x2, value_eq hs.wf, hx], fun i => by rw [value_eq y2, value_eq hs.wf, hy],
    fun hc => ⟨(eq_iff x2 hs.wf x3 hc).2 hx, (eq_iff y2 hs.wf y3 hc).2 hy⟩⟩

theorem inverse_length {s u : SigPerm} (hs : WF s) (hu : WF u) (h1 : ∀ i : Nat, ext u.val (s.val i) = i)
    (h2 : ∀ i : Nat, ext s.val (u.val i) = i) : u.length = s.length := by
  apply Nat.le_antisymm
  · rw [hu.length_le]
    intro i hi
    have := h1 i
    rwa [hs.signed.fix i hi, ext_nat] at this
  · rw [hs.length_le]
    intro i hi
    have := h2 i
    rwa [hu.signed.fix i hi, ext_nat] at this

theorem inverse_unique {f g : Nat → Int} {h : Nat → Int} (h1 : ∀ i : Nat, ext g (f i) = i) (h2 : ∀ i : Nat, ext f (h i) = i) :
    g = h := by
  funext i
  have a := congrArg (ext g) (h2 i)
  rw [ext_nat, ← ext_comp] at a
  rw [← a]
  have : (fun i => ext g (f i)) = fun i : Nat => (i : Int) := funext h1
  rw [this, ext_id]

/-- **C32.** The inverse undoes the signed permutation on both sides, has the same length, and its inverse is the original. -/
theorem C32_inverse (s : SigPerm) (hs : Finite s) :
    ∃ u x y r, s.inverse = .ok u ∧ Finite u ∧ u.length = s.length ∧ u.binv.length = u.length ∧
      (∀ i : Nat, u.apply (s.value i) = i ∧ s.apply (u.value i) = i) ∧
      s.mul u = .ok x ∧ x.neutral = true ∧ u.mul s = .ok y ∧ y.neutral = true ∧
      u.inverse = .ok r ∧ (∀ i, r.value i = s.value i) := by
  obtain ⟨u, u1, u2, u3, u4, u5, u6⟩ := inverse_spec hs.wf
  obtain ⟨x, x1, x2, x3, x4, x5⟩ := mul_spec hs.wf u2
  obtain ⟨y, y1, y2, y3, y4, y5⟩ := mul_spec u2 hs.wf
  obtain ⟨r, r1, r2, r3, r4, r5, r6⟩ := inverse_spec u2
  refine ⟨u, x, y, r, u1, u4, inverse_length hs.wf u2 u5 u6, u3, ?_, x1, ?_, y1, ?_, r1, ?_⟩
  · intro i
    rw [apply_eq u2, apply_eq hs.wf, value_eq hs.wf, value_eq u2]
    exact ⟨u5 i, u6 i⟩
  · rw [x2.neutral_iff, x5]; exact u6
  · rw [y2.neutral_iff, y5]; exact u5
  · intro i
    rw [value_eq r2, value_eq hs.wf, inverse_unique r5 u5]

example : (new { sequence := some [-3, 0, 1] }).bind (·.inverse) = new { sequence := some [1, 2, -1] } := by decide

/-- **C32.** `(s * t).inverse == t.inverse * s.inverse` -/
theorem C32_inverse_of_product (s t : SigPerm) (hs : Finite s) (ht : Finite t) :
    ∃ st si ti x y, s.mul t = .ok st ∧ s.inverse = .ok si ∧ t.inverse = .ok ti ∧ st.inverse = .ok x ∧ ti.mul si = .ok y ∧
      x.eq y = true := by
  obtain ⟨st, a1, a2, a3, a4, a5⟩ := mul_spec hs.wf ht.wf
  obtain ⟨si, b1, b2, b3, b4, b5, b6⟩ := inverse_spec hs.wf
  obtain ⟨ti, c1, c2, c3, c4, c5, c6⟩ := inverse_spec ht.wf
  obtain ⟨x, x1, x2, x3, x4, x5, x6⟩ := inverse_spec a2
  obtain ⟨y, y1, y2, y3, y4, y5⟩ := mul_spec c2 b2
  refine ⟨st, si, ti, x, y, a1, b1, c1, x1, y1, (eq_iff x2 y2 x3 y3).2 ?_⟩
  refine inverse_unique x5 ?_
  intro i
  rw [y5, a5, ext_comp]
  have h1 : (fun i => ext t.val (ti.val i)) = fun i : Nat => (i : Int) := funext c6
  rw [← ext_comp t.val ti.val, h1, ext_id, b6]

/-! ### C33 -/

theorem mapM_map_ok {α β : Type} {f : α → Except Err β} {g : α → β} (l : List α) (h : ∀ x ∈ l, f x = .ok (g x)) :
    l.mapM f = .ok (l.map g) := by
  induction l with
  | nil => rfl
  | cons x t ih =>
    rw [List.mapM_cons, h x (by simp), ih (fun y hy => h y (by simp [hy]))]
    rfl

theorem applyOnVector_spec {s : SigPerm} (hs : WF s) (v : List Int) :
    (s.length ≤ v.length → ∃ w, s.applyOnVector v = .ok w ∧ w.length = v.length ∧
      ∀ i, i < v.length → w[nabs (s.val i)]? = (v[i]?).map (fun x => if s.val i < 0 then inv x else x)) ∧
    (v.length < s.length → s.applyOnVector v = .error .valueError) := by
  obtain ⟨u, u1, u2, u3, u4, u5, u6⟩ := inverse_spec hs
  have hl := inverse_length hs u2 u5 u6
  constructor
  · intro hv
    have hS := hs.signed.mono hv
    have hU := u2.signed.mono (M := v.length) (by omega)
    have hsurj := hS.surj
    unfold SigPerm.applyOnVector
    simp only [u1, bind, Except.bind]
    rw [(u2.sequence v.length).1 (by omega)]
    simp only
    rw [mapM_map_ok (g := fun e => if e < 0 then inv ((v[nabs e]?).getD 0) else (v[nabs e]?).getD 0)]
    · refine ⟨_, rfl, by simp, ?_⟩
      intro i hi
      rw [List.getElem?_map, List.getElem?_map, List.getElem?_range (hS.lt i hi), List.getElem?_eq_getElem hi]
      have hu := u5 i
      have hn : nabs (u.val (nabs (s.val i))) = i := by
        have := congrArg nabs hu
        rwa [nabs_ext, nabs_nat] at this
      simp only [Option.map_some, hn, List.getElem?_eq_getElem hi, Option.getD_some, Option.some.injEq]
      unfold ext at hu
      by_cases hneg : s.val i < 0
      · rw [if_pos hneg] at hu
        rw [if_pos hneg, if_pos (by unfold inv at hu; omega)]
      · rw [if_neg hneg] at hu
        rw [if_neg hneg, if_neg (by omega)]
    · intro e he
      obtain ⟨i, hi, rfl⟩ := List.mem_map.1 he
      rw [List.mem_range] at hi
      have := hU.lt i hi
      have h' : (logicAbs (u.val i)).toNat < v.length := this
      rw [List.getElem?_eq_getElem h']
      simp only [nabs, List.getElem?_eq_getElem h', Option.getD_some]
  · intro hv
    unfold SigPerm.applyOnVector
    simp only [u1, bind, Except.bind]
    rw [(u2.sequence v.length).2 (by omega)]

theorem vector_ext {f : Nat → Int} {N : Nat} (h : Signed f N) {v w : List Int} (hv : v.length = N) (hw : w.length = N)
    (he : ∀ i, i < N → v[nabs (f i)]? = w[nabs (f i)]?) : v = w := by
  apply List.ext_getElem?
  intro j
  by_cases hj : j < N
  · obtain ⟨i, rfl⟩ := h.surj j
    exact he i ((h.lt_iff i).1 hj)
  · rw [List.getElem?_eq_none (by omega), List.getElem?_eq_none (by omega)]

/-- **C33.** `apply_on_vector` succeeds exactly for vectors not shorter than the signed permutation (otherwise `ValueError`); the
element at `i` goes to the place `s[i]` unchanged, or to the place `~s[i]` negated. -/
theorem C33_vector (s : SigPerm) (hs : Finite s) (v : List Int) :
    (s.length ≤ v.length → ∃ w, s.applyOnVector v = .ok w ∧ w.length = v.length ∧
      ∀ i, i < v.length → (0 ≤ s.value i → w[(s.value i).toNat]? = v[i]?) ∧
        (s.value i < 0 → w[(inv (s.value i)).toNat]? = (v[i]?).map inv)) ∧
    (v.length < s.length → s.applyOnVector v = .error .valueError) := by
  refine ⟨fun h => ?_, (applyOnVector_spec hs.wf v).2⟩
  obtain ⟨w, w1, w2, w3⟩ := (applyOnVector_spec hs.wf v).1 h
  refine ⟨w, w1, w2, ?_⟩
  intro i hi
  have := w3 i hi
  rw [value_eq hs.wf]
  unfold nabs logicAbs at this
  constructor
  · intro h0
    rw [if_neg (by omega)] at this
    rw [this]
    simp [Int.not_lt.2 h0]
  · intro h0
    rw [if_pos h0] at this
    rw [this]
    simp [h0]

example : (new { sequence := some [-3, 0, 1] }).bind (·.applyOnVector [5, 6, 7, 8]) = .ok [6, 7, -6, 8] ∧
    (new { sequence := some [-3, 0, 1] }).bind (·.applyOnVector [5, 6]) = .error .valueError := by decide

/-- **C33.** This is a left action: `(s * t)` does what `t` and then `s` do; and the inverse undoes it. -/
theorem C33_vector_action (s t : SigPerm) (hs : Finite s) (ht : Finite t) (v : List Int) (h1 : s.length ≤ v.length)
    (h2 : t.length ≤ v.length) :
    (∃ st tv w, s.mul t = .ok st ∧ t.applyOnVector v = .ok tv ∧ s.applyOnVector tv = .ok w ∧ st.applyOnVector v = .ok w) ∧
    (∃ si w, s.inverse = .ok si ∧ s.applyOnVector v = .ok w ∧ si.applyOnVector w = .ok v) := by
  constructor
  · obtain ⟨st, a1, a2, a3, a4, a5⟩ := mul_spec hs.wf ht.wf
    have hstl : st.length ≤ v.length := by
      rw [a2.length_le, a5]
      intro i hi
      simp only
      rw [ht.wf.signed.fix i (by omega), ext_nat, hs.wf.signed.fix i (by omega)]
    obtain ⟨tv, b1, b2, b3⟩ := (applyOnVector_spec ht.wf v).1 h2
    obtain ⟨w, c1, c2, c3⟩ := (applyOnVector_spec hs.wf tv).1 (by omega)
    obtain ⟨w', d1, d2, d3⟩ := (applyOnVector_spec a2 v).1 hstl
    refine ⟨st, tv, w, a1, b1, c1, ?_⟩
    rw [d1]
    congr 1
    apply vector_ext (a2.signed.mono hstl) d2 (by omega)
    intro i hi
    rw [d3 i hi, a5]
    have hti := (ht.wf.signed.mono h2).lt i hi
    simp only [nabs_ext]
    rw [c3 _ (by omega), b3 i hi, Option.map_map]
    congr 1
    funext x
    simp only [Function.comp]
    by_cases e1 : t.val i < 0 <;> by_cases e2 : s.val (nabs (t.val i)) < 0 <;> simp [ext_neg, e1, e2, inv_inv]
  · obtain ⟨u, u1, u2, u3, u4, u5, u6⟩ := inverse_spec hs.wf
    have hl := inverse_length hs.wf u2 u5 u6
    obtain ⟨w, b1, b2, b3⟩ := (applyOnVector_spec hs.wf v).1 h1
    obtain ⟨v', c1, c2, c3⟩ := (applyOnVector_spec u2 w).1 (by omega)
    refine ⟨u, w, u1, b1, ?_⟩
    rw [c1]
    congr 1
    apply List.ext_getElem?
    intro i
    by_cases hi : i < v.length
    · have hsi := (hs.wf.signed.mono h1).lt i hi
      have hu := u5 i
      have hn : nabs (u.val (nabs (s.val i))) = i := by
        have := congrArg nabs hu
        rwa [nabs_ext, nabs_nat] at this
      have := c3 (nabs (s.val i)) (by omega)
      rw [hn, b3 i hi, Option.map_map] at this
      rw [this, List.getElem?_eq_getElem hi]
      simp only [Option.map_some, Function.comp, Option.some.injEq]
      unfold ext at hu
      by_cases hneg : s.val i < 0
      · rw [if_pos hneg] at hu
        rw [if_pos hneg, if_pos (by unfold inv at hu; omega), inv_inv]
      · rw [if_neg hneg] at hu
        rw [if_neg hneg, if_neg (by omega)]
    · rw [List.getElem?_eq_none (by omega), List.getElem?_eq_none (by omega)]

theorem mk_intval_min (n m : Nat) : ∃ b, BV.mk { intval := some (n : Int), minimalLength := some (m : Int) } = .ok b ∧ b.intval = n ∧ m ≤ b.length := by
  by_cases hm : 0 < m
  · obtain ⟨b, b1, b2, b3⟩ := C26_intval_minimal_length n m hm
    exact ⟨b, b1, b2, ((b3 b.length).1 (Nat.le_refl _)).1⟩
  · have : m = 0 := by omega
    subst this
    unfold BV.mk mkIntval
    simp only [ge_iff_le, Int.natCast_nonneg, if_true, Int.toNat_natCast]
    exact ⟨_, rfl, by rw [intval_eq]; exact valB_zfill _ _, Nat.zero_le _⟩

theorem testBit_vector (b : Binv) (i : Nat) : b.intval.testBit i = ((b.vector[i]?).getD false) := by
  rw [intval_eq, testBit_valB, List.getD_eq_getElem?_getD]

theorem applyOnNaturalNumber_spec {s : SigPerm} (hs : WF s) (n : Nat) :
    ∃ m, s.applyOnNaturalNumber n = .ok m ∧
      ∀ i, m.testBit (nabs (s.val i)) = (n.testBit i).xor (decide (s.val i < 0)) := by
  obtain ⟨b, b1, b2, b3⟩ := mk_intval_min n s.length
  unfold SigPerm.applyOnNaturalNumber
  rw [b1]
  simp only [bind, Except.bind]
  have hlen : (b.vector.map (fun b => (b.toNat : Int))).length = b.length := by simp [Binv.length]
  obtain ⟨w, w1, w2, w3⟩ := (applyOnVector_spec hs (b.vector.map (fun b => (b.toNat : Int)))).1 (by rw [hlen]; exact b3)
  rw [w1]
  simp only
  obtain ⟨c, c1, c2, c3⟩ := (C26_vector (w.map (· % 2)) []).1 (by
    intro x hx
    obtain ⟨y, _, rfl⟩ := List.mem_map.1 hx
    omega)
  rw [c1]
  refine ⟨_, rfl, ?_⟩
  intro i
  rw [Bool.eq_iff_iff, ← (C26_attributes c).2.2.2.1]
  unfold Binv.hasIndex
  rw [List.contains_iff_mem, c3, List.getElem?_map]
  rw [hlen] at w2 w3
  by_cases hi : i < b.length
  · rw [w3 i hi, List.getElem?_map]
    rw [← b2, testBit_vector]
    have hi' : i < b.vector.length := hi
    rw [List.getElem?_eq_getElem hi']
    simp only [Option.map_some, Option.some.injEq, Option.getD_some]
    by_cases hneg : s.val i < 0 <;> cases b.vector[i] <;> simp [hneg, inv]
  · rw [hs.signed.fix i (by omega), nabs_nat, List.getElem?_eq_none (by omega)]
    have : n.testBit i = false := by
      rw [← b2, testBit_vector, List.getElem?_eq_none (by unfold Binv.length at hi; omega)]
      rfl
    rw [this]
    simp

/-- **C33.** `apply_on_natural_number` permutes the binary digits: the digit at `i` goes to the place `s[i]` unchanged, or to the place
`~s[i]` flipped.  Negative numbers are rejected. -/
theorem C33_number (s : SigPerm) (hs : Finite s) :
    (∀ n : Nat, ∃ m, s.applyOnNaturalNumber n = .ok m ∧
      ∀ i, (0 ≤ s.value i → m.testBit (s.value i).toNat = n.testBit i) ∧
        (s.value i < 0 → m.testBit (inv (s.value i)).toNat = !n.testBit i)) ∧
    (∀ n : Int, n < 0 → s.applyOnNaturalNumber n = .error .intvalError) := by
  constructor
  · intro n
    obtain ⟨m, m1, m2⟩ := applyOnNaturalNumber_spec hs.wf n
    refine ⟨m, m1, ?_⟩
    intro i
    have := m2 i
    rw [value_eq hs.wf]
    unfold nabs logicAbs at this
    constructor
    · intro h0
      rw [if_neg (by omega)] at this
      rw [this]
      simp [Int.not_lt.2 h0]
    · intro h0
      rw [if_pos h0] at this
      rw [this]
      simp [h0]
  · intro n hn
    unfold SigPerm.applyOnNaturalNumber
    rw [C26_negative_intval n none _ hn]
    rfl

example : (new { sequence := some [-3, 0, 1] }).bind (·.applyOnNaturalNumber 9) = .ok 8 ∧
    (new { sequence := some [-3, 0, 1] }).bind (·.applyOnNaturalNumber 8) = .ok 12 := by decide

theorem number_ext {f : Nat → Int} {N : Nat} (h : Signed f N) {m n : Nat} (he : ∀ i, m.testBit (nabs (f i)) = n.testBit (nabs (f i))) :
    m = n := by
  apply Nat.eq_of_testBit_eq
  intro j
  obtain ⟨i, rfl⟩ := h.surj j
  exact he i

/-- **C33.** On natural numbers this is a left action by bijections, and numbers below `2 ** n` are sent to such numbers, if `n` is not
below the length. -/
theorem C33_number_action (s t : SigPerm) (hs : Finite s) (ht : Finite t) (n : Nat) :
    (∃ st a b, s.mul t = .ok st ∧ t.applyOnNaturalNumber n = .ok a ∧ s.applyOnNaturalNumber a = .ok b ∧
      st.applyOnNaturalNumber n = .ok b) ∧
    (∃ si a, s.inverse = .ok si ∧ s.applyOnNaturalNumber n = .ok a ∧ si.applyOnNaturalNumber a = .ok n) ∧
    (∀ k, s.length ≤ k → n < 2 ^ k → ∃ a, s.applyOnNaturalNumber n = .ok a ∧ a < 2 ^ k) := by
  refine ⟨?_, ?_, ?_⟩
  · obtain ⟨st, a1, a2, a3, a4, a5⟩ := mul_spec hs.wf ht.wf
    obtain ⟨a, b1, b2⟩ := applyOnNaturalNumber_spec ht.wf n
    obtain ⟨b, c1, c2⟩ := applyOnNaturalNumber_spec hs.wf a
    obtain ⟨b', d1, d2⟩ := applyOnNaturalNumber_spec a2 n
    refine ⟨st, a, b, a1, b1, c1, ?_⟩
    rw [d1]
    congr 1
    apply number_ext a2.signed
    intro i
    rw [d2, a5]
    simp only [nabs_ext]
    rw [c2, b2, Bool.xor_assoc]
    congr 1
    by_cases e1 : t.val i < 0 <;> by_cases e2 : s.val (nabs (t.val i)) < 0 <;> simp [ext_neg, e1, e2]
  · obtain ⟨u, u1, u2, u3, u4, u5, u6⟩ := inverse_spec hs.wf
    obtain ⟨a, b1, b2⟩ := applyOnNaturalNumber_spec hs.wf n
    obtain ⟨n', c1, c2⟩ := applyOnNaturalNumber_spec u2 a
    refine ⟨u, a, u1, b1, ?_⟩
    rw [c1]
    congr 1
    apply Nat.eq_of_testBit_eq
    intro i
    have hu := u5 i
    have hn : nabs (u.val (nabs (s.val i))) = i := by
      have := congrArg nabs hu
      rwa [nabs_ext, nabs_nat] at this
    have := c2 (nabs (s.val i))
    rw [hn, b2, Bool.xor_assoc] at this
    rw [this]
    unfold ext at hu
    by_cases hneg : s.val i < 0
    · rw [if_pos hneg] at hu
      have : u.val (nabs (s.val i)) < 0 := by unfold inv at hu; omega
      simp [hneg, this]
    · rw [if_neg hneg] at hu
      have : ¬ u.val (nabs (s.val i)) < 0 := by omega
      simp [hneg, this]
  · intro k hk hn
    obtain ⟨a, b1, b2⟩ := applyOnNaturalNumber_spec hs.wf n
    refine ⟨a, b1, ?_⟩
    apply Nat.lt_pow_two_of_testBit
    intro j hj
    have := b2 j
    rw [hs.wf.signed.fix j (by omega), nabs_nat] at this
    rw [this, Nat.testBit_lt_two_pow (Nat.lt_of_lt_of_le hn (Nat.pow_le_pow_right (by omega) hj))]
    simp

end Verif.SG
