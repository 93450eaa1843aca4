import Verif.Perm.InvModel
import Verif.Perm.Sem
import Mathlib.Data.List.Lemmas

/-! Helper lemmas: inversion counts and their decoders, factorial number system. -/

namespace Verif.P
open Verif.Py

theorem map_getD_range (p : List Nat) : (List.range p.length).map (fun k => p.getD k 0) = p := by
  apply List.ext_getElem
  · simp
  · intro i h1 h2; simp [h2]

theorem countP_getD (p : List Nat) (P : Nat → Bool) :
    (List.range p.length).countP (fun k => P (p.getD k 0)) = p.countP P := by
  conv_rhs => rw [← map_getD_range p]
  rw [List.countP_map]; rfl

/-- Right inversion counts by recursion. -/
def ricRec : List Nat → List Nat
  | [] => []
  | x :: xs => xs.countP (· < x) :: ricRec xs

theorem rightInversionCount_eq (p : List Nat) : rightInversionCount p = ricRec p := by
  induction p with
  | nil => rfl
  | cons x xs ih =>
    unfold rightInversionCount ricRec
    rw [List.length_cons, List.range_succ_eq_map, List.map_cons, List.map_map, ← ih]
    congr 1
    · have := countP_getD (x :: xs) (fun y => decide (y < x))
      rw [List.length_cons, List.range_eq_range'] at this
      simpa using this
    · unfold rightInversionCount
      apply List.map_congr_left
      intro i _
      simp only [Function.comp, Nat.succ_eq_add_one, Nat.add_sub_add_right, List.getD_cons_succ]
      rw [Nat.add_comm i 1, ← List.map_add_range', List.countP_map]
      apply List.countP_congr
      intro k _
      simp [Function.comp, Nat.add_comm 1 k]

theorem length_ricRec (p : List Nat) : (ricRec p).length = p.length := by
  induction p with
  | nil => rfl
  | cons x xs ih => simp [ricRec, ih]

theorem ricRec_getElem_lt (p : List Nat) (i : Nat) (h : i < (ricRec p).length) : (ricRec p)[i] < p.length - i := by
  induction p generalizing i with
  | nil => simp [ricRec] at h
  | cons x xs ih =>
    cases i with
    | zero =>
      simp only [ricRec, List.getElem_cons_zero, List.length_cons]
      have := List.countP_le_length (p := fun y => decide (y < x)) (l := xs)
      omega
    | succ i =>
      simp only [ricRec, List.getElem_cons_succ, List.length_cons]
      have := ih i (by simpa [ricRec] using h)
      omega

theorem countP_lt_append {A B : List Nat} {c : Nat} (hA : ∀ a ∈ A, a < c) (hB : ∀ b ∈ B, c < b) :
    (A ++ B).countP (· < c) = A.length := by
  rw [List.countP_append, List.countP_eq_length.2 (by simpa using hA), List.countP_eq_zero.2, Nat.add_zero]
  intro b hb; have := hB b hb; simp; omega

theorem rightLoop_ricRec (p : List Nat) : ∀ (S acc : List Nat), S.Pairwise (· < ·) → p.Perm S →
    rightLoop (ricRec p) S acc = .ok (acc ++ p) := by
  induction p with
  | nil => intro S acc _ _; simp [ricRec, rightLoop]
  | cons x xs ih =>
    intro S acc hS hp
    have hx : x ∈ S := hp.mem_iff.1 (by simp)
    obtain ⟨A, B, rfl⟩ := List.append_of_mem hx
    rw [List.pairwise_append, List.pairwise_cons] at hS
    obtain ⟨h1, ⟨h2, h3⟩, h4⟩ := hS
    have hA : ∀ a ∈ A, a < x := fun a ha => h4 a ha x (by simp)
    have hxs : xs.Perm (A ++ B) := by
      have := hp.trans (List.perm_middle (a := x) (l₁ := A) (l₂ := B))
      exact this.cons_inv
    have hb : xs.countP (· < x) = A.length := by rw [hxs.countP_eq, countP_lt_append hA h2]
    simp only [ricRec, rightLoop, hb]
    rw [List.getElem?_append_right (Nat.le_refl _)]
    simp only [Nat.sub_self, List.getElem?_cons_zero]
    rw [List.eraseIdx_append_of_length_le (Nat.le_refl _)]
    simp only [Nat.sub_self, List.eraseIdx_cons_zero]
    rw [ih (A ++ B) (acc ++ [x]) ?_ hxs]
    · simp
    · rw [List.pairwise_append]
      exact ⟨h1, h3, fun a ha b hb => h4 a ha b (List.mem_cons_of_mem _ hb)⟩

theorem rightLoop_spec (v : List Nat) : ∀ (S acc : List Nat), S.Pairwise (· < ·) → S.length = v.length →
    (∀ i (h : i < v.length), v[i] < v.length - i) →
    ∃ p, rightLoop v S acc = .ok (acc ++ p) ∧ p.Perm S ∧ ricRec p = v := by
  induction v with
  | nil => intro S acc _ h _; exact ⟨[], by simp [rightLoop], by rw [List.length_eq_zero_iff.1 h], rfl⟩
  | cons b bs ih =>
    intro S acc hS hl hv
    have hb : b < S.length := by have := hv 0 (by simp); simp at this; rw [hl]; simpa using this
    have hsplit : S = S.take b ++ S[b] :: S.drop (b + 1) := by
      rw [← List.drop_eq_getElem_cons, List.take_append_drop]
    have hlen : (S.take b).length = b := by rw [List.length_take]; omega
    generalize S.take b = A at hsplit hlen
    generalize S.drop (b + 1) = B at hsplit
    generalize hc : S[b] = c at hsplit
    subst hsplit
    rw [List.pairwise_append, List.pairwise_cons] at hS
    obtain ⟨h1, ⟨h2, h3⟩, h4⟩ := hS
    have hA : ∀ a ∈ A, a < c := fun a ha => h4 a ha c (by simp)
    obtain ⟨p, p1, p2, p3⟩ := ih (A ++ B) (acc ++ [c]) (by
        rw [List.pairwise_append]
        exact ⟨h1, h3, fun a ha b hb => h4 a ha b (List.mem_cons_of_mem _ hb)⟩) (by
        simp at hl ⊢; omega) (by
        intro i hi
        have := hv (i + 1) (by simpa using hi)
        simp at this
        exact this)
    refine ⟨c :: p, ?_, ?_, ?_⟩
    · unfold rightLoop
      rw [List.getElem?_append_right (by omega), hlen]
      simp only [Nat.sub_self, List.getElem?_cons_zero]
      rw [List.eraseIdx_append_of_length_le (by omega), hlen]
      simp only [Nat.sub_self, List.eraseIdx_cons_zero]
      rw [p1]; simp
    · exact (p2.cons c).trans List.perm_middle.symm
    · unfold ricRec
      rw [p3, p2.countP_eq, countP_lt_append hA h2, hlen]

theorem rightLoop_error (v : List Nat) : ∀ (S acc : List Nat), S.length = v.length →
    (¬ ∀ i (h : i < v.length), v[i] < v.length - i) → rightLoop v S acc = .error .indexError := by
  induction v with
  | nil => intro S acc _ h; exact absurd (by simp) h
  | cons b bs ih =>
    intro S acc hl hv
    unfold rightLoop
    by_cases hb : b < S.length
    · rw [List.getElem?_eq_getElem hb]
      simp only
      apply ih
      · rw [List.length_eraseIdx_of_lt hb, hl]; simp
      · intro h
        apply hv
        intro i hi
        cases i with
        | zero => simp at hl ⊢; omega
        | succ i => have := h i (by simpa using hi); simpa using this
    · rw [List.getElem?_eq_none (by omega)]

theorem range_pairwise (n : Nat) : (List.range n).Pairwise (· < ·) := List.pairwise_lt_range

/-! ## The left variant is the right variant of the rotated permutation -/

theorem leftLoop_eq (n : Nat) (v : List Nat) : ∀ (S perm acc : List Nat), perm = (acc.map (n - 1 - ·)).reverse →
    leftLoop n v S perm = (rightLoop v S acc).map (fun r => (r.map (n - 1 - ·)).reverse) := by
  induction v with
  | nil => intro S perm acc h; simp [leftLoop, rightLoop, h, Except.map]
  | cons b bs ih =>
    intro S perm acc h
    unfold leftLoop rightLoop
    cases S[b]? with
    | none => rfl
    | some c => exact ih _ _ _ (by rw [h]; simp)

/-- Reverse complement. -/
def revComp (p : List Nat) : List Nat := (p.map (p.length - 1 - ·)).reverse

theorem length_revComp (p : List Nat) : (revComp p).length = p.length := by simp [revComp]

theorem revComp_revComp {p : List Nat} (h : ∀ x ∈ p, x < p.length) : revComp (revComp p) = p := by
  unfold revComp
  rw [List.map_reverse, List.reverse_reverse, List.map_map, List.length_reverse, List.length_map]
  conv_rhs => rw [← List.map_id p]
  apply List.map_congr_left
  intro x hx
  have := h x hx
  simp only [Function.comp, id]
  omega

theorem perm_range_lt {p : List Nat} (h : p.Perm (List.range p.length)) : ∀ x ∈ p, x < p.length := by
  intro x hx; exact List.mem_range.1 (h.mem_iff.1 hx)

theorem revComp_perm {p : List Nat} (h : p.Perm (List.range p.length)) :
    (revComp p).Perm (List.range (revComp p).length) := by
  rw [length_revComp]
  unfold revComp
  refine (List.reverse_perm _).trans ((h.map _).trans ?_)
  have : (List.range p.length).map (p.length - 1 - ·) = (List.range p.length).reverse := by
    apply List.ext_getElem
    · simp
    · intro i h1 h2
      simp at h1
      simp [List.getElem_reverse]
  rw [this]
  exact List.reverse_perm _

theorem getD_revComp {p : List Nat} {i : Nat} (hi : i < p.length) :
    (revComp p).getD i 0 = p.length - 1 - p.getD (p.length - 1 - i) 0 := by
  unfold revComp
  have h1 : p.length - 1 - i < p.length := by omega
  simp [List.getD, hi, h1]

theorem countP_range_reflect (n i : Nat) (hi : i < n) (P : Nat → Bool) (hP : P i = false) :
    (List.range i).countP P = (List.range' (n - 1 - i) (n - (n - 1 - i))).countP (fun k => P (n - 1 - k)) := by
  have h1 : n - (n - 1 - i) = i + 1 := by omega
  rw [h1]
  have h2 : (List.range' (n - 1 - i) (i + 1)).map (fun k => n - 1 - k) = (List.range (i + 1)).reverse := by
    apply List.ext_getElem
    · simp
    · intro j h3 h4
      simp at h3
      simp [List.getElem_reverse]
      omega
  have h3 : (List.range' (n - 1 - i) (i + 1)).countP (fun k => P (n - 1 - k)) =
      ((List.range' (n - 1 - i) (i + 1)).map (fun k => n - 1 - k)).countP P := by
    rw [List.countP_map]; rfl
  rw [h3, h2, List.countP_reverse, List.range_succ, List.countP_append]
  simp [hP]

theorem leftInversionCount_eq {p : List Nat} (hp : ∀ x ∈ p, x < p.length) :
    leftInversionCount p = (rightInversionCount (revComp p)).reverse := by
  have hlt : ∀ k, p.getD k 0 ≤ p.length - 1 := by
    intro k
    by_cases hk : k < p.length
    · have := hp _ (List.getElem_mem hk); rw [getD_of_lt hk]; omega
    · simp [List.getD, List.getElem?_eq_none (Nat.not_lt.1 hk)]
  apply List.ext_getElem
  · simp [leftInversionCount, rightInversionCount, length_revComp]
  · intro i h1 h2
    have hi : i < p.length := by simpa [leftInversionCount] using h1
    rw [List.getElem_reverse]
    simp only [leftInversionCount, rightInversionCount, List.getElem_map, List.getElem_range, length_revComp,
      List.length_map, List.length_range]
    rw [countP_range_reflect p.length i hi _ (by simp)]
    apply List.countP_congr
    intro k hk
    simp only [List.mem_range'_1] at hk
    have hk2 : k < p.length := by omega
    have e1 : p.length - 1 - (p.length - 1 - i) = i := by omega
    rw [getD_revComp hk2, getD_revComp (by omega : p.length - 1 - i < p.length), e1]
    have := hlt (p.length - 1 - k)
    have := hlt i
    simp only [gt_iff_lt, decide_eq_true_eq]
    omega

/-! ## Factorial number system -/

/-- Horner value with successive bases `d, d+1, …`. -/
def valFrom (d : Nat) : List Nat → Nat
  | [] => 0
  | x :: xs => x + d * valFrom (d + 1) xs

theorem valFrom_factorial (ds : List Nat) (d : Nat) :
    valFrom (d + 1) ds * Nat.factorial d = ((ds.zipIdx d).map (fun di => di.1 * Nat.factorial di.2)).sum := by
  induction ds generalizing d with
  | nil => simp [valFrom]
  | cons x xs ih =>
    rw [List.zipIdx_cons, List.map_cons, List.sum_cons, ← ih (d + 1), valFrom, Nat.add_mul, Nat.factorial_succ]
    congr 1
    rw [Nat.mul_comm (d + 1), Nat.mul_assoc]

theorem fromFactoradic_eq (ds : List Nat) : fromFactoradic ds = valFrom 1 ds := by
  have := valFrom_factorial ds 0
  simp only [Nat.zero_add, Nat.factorial_zero, Nat.mul_one] at this
  rw [this, fromFactoradic]

/-- Proper digit lists: digit `i` is below `d + i`, and the last digit is nonzero. -/
def Digits (d : Nat) (ds : List Nat) : Prop :=
  (∀ i (h : i < ds.length), ds[i] < d + i) ∧ ∀ x, ds.getLast? = some x → x ≠ 0

theorem Digits.tail {d x : Nat} {xs : List Nat} (h : Digits d (x :: xs)) : x < d ∧ Digits (d + 1) xs := by
  refine ⟨by have := h.1 0 (by simp); simpa using this, ?_, ?_⟩
  · intro i hi; have := h.1 (i + 1) (by simpa using hi); simp at this; omega
  · intro y hy
    apply h.2 y
    cases xs with
    | nil => simp at hy
    | cons z zs => rw [List.getLast?_cons_cons]; exact hy

theorem Digits.pos {d : Nat} {ds : List Nat} (hd : 0 < d) (h : Digits d ds) (hne : ds ≠ []) : 0 < valFrom d ds := by
  induction ds generalizing d with
  | nil => exact absurd rfl hne
  | cons x xs ih =>
    unfold valFrom
    cases xs with
    | nil => have := h.2 x rfl; simp [valFrom]; omega
    | cons y ys =>
      have := ih (Nat.succ_pos d) h.tail.2 (by simp)
      have : 0 < d * valFrom (d + 1) (y :: ys) := Nat.mul_pos hd this
      omega

theorem Digits.unique {d : Nat} {ds es : List Nat} (hd : 0 < d) (h : Digits d ds) (h' : Digits d es)
    (he : valFrom d ds = valFrom d es) : ds = es := by
  induction ds generalizing d es with
  | nil =>
    by_contra hc
    have := h'.pos hd (fun h => hc h.symm)
    rw [← he] at this
    simp [valFrom] at this
  | cons x xs ih =>
    cases es with
    | nil =>
      have := h.pos hd (by simp)
      rw [he] at this
      simp [valFrom] at this
    | cons y ys =>
      obtain ⟨hx, hxs⟩ := h.tail
      obtain ⟨hy, hys⟩ := h'.tail
      unfold valFrom at he
      have e1 : x = y := by
        have := congrArg (· % d) he
        simpa [Nat.add_mul_mod_self_left, Nat.mod_eq_of_lt hx, Nat.mod_eq_of_lt hy] using this
      subst e1
      have e2 : valFrom (d + 1) xs = valFrom (d + 1) ys := Nat.eq_of_mul_eq_mul_left hd (Nat.add_left_cancel he)
      rw [ih (Nat.succ_pos d) hxs hys e2]

theorem factoradicLoop_spec (fuel : Nat) : ∀ (value d : Nat) (acc : List Nat), 2 ≤ d → value ≤ fuel →
    ∃ ds, factoradicLoop fuel value d acc = .ok (acc ++ ds) ∧ Digits d ds ∧ valFrom d ds = value := by
  induction fuel with
  | zero =>
    intro value d acc hd hf
    have : value = 0 := by omega
    subst this
    refine ⟨[], by simp [factoradicLoop], ⟨by simp, by simp⟩, rfl⟩
  | succ fuel ih =>
    intro value d acc hd hf
    unfold factoradicLoop
    by_cases hv : value > 0
    · rw [if_pos hv]
      simp only
      have hlt : value / d < value := Nat.div_lt_self hv hd
      obtain ⟨ds, e1, e2, e3⟩ := ih (value / d) (d + 1) (acc ++ [value % d]) (by omega) (by omega)
      refine ⟨value % d :: ds, by rw [e1]; simp, ⟨?_, ?_⟩, ?_⟩
      · intro i hi
        cases i with
        | zero => simpa using Nat.mod_lt _ (by omega)
        | succ i => have := e2.1 i (by simpa using hi); simp; omega
      · intro y hy
        cases ds with
        | nil =>
          simp at hy
          subst hy
          simp [valFrom] at e3
          intro h0
          have := Nat.mod_add_div value d
          rw [h0] at this
          have h3 : value / d = 0 := by omega
          rw [h3] at this
          omega
        | cons z zs => rw [List.getLast?_cons_cons] at hy; exact e2.2 y hy
      · unfold valFrom; rw [e3]; exact Nat.mod_add_div value d
    · rw [if_neg hv]
      have : value = 0 := by omega
      subst this
      exact ⟨[], by simp, ⟨by simp, by simp⟩, rfl⟩

theorem intToFactoradic_spec (n : Nat) : ∃ ds, intToFactoradic n = .ok ds ∧ Digits 1 ds ∧ valFrom 1 ds = n := by
  unfold intToFactoradic factoradicLoop
  by_cases hn : n > 0
  · rw [if_pos hn]
    simp only
    obtain ⟨ds, e1, e2, e3⟩ := factoradicLoop_spec n (n / 1) 2 ([] ++ [n % 1]) (by omega) (by simp)
    refine ⟨n % 1 :: ds, by rw [e1]; simp, ⟨?_, ?_⟩, ?_⟩
    · intro i hi
      cases i with
      | zero => simp [Nat.mod_one]
      | succ i => have := e2.1 i (by simpa using hi); simp; omega
    · intro y hy
      cases ds with
      | nil => simp [valFrom] at e3; omega
      | cons z zs => rw [List.getLast?_cons_cons] at hy; exact e2.2 y hy
    · unfold valFrom; rw [e3]; simp [Nat.mod_one]
  · rw [if_neg hn]
    exact ⟨[], rfl, ⟨by simp, by simp⟩, by simp [valFrom]; omega⟩

end Verif.P
