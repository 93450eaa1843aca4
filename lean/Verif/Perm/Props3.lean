import Verif.Perm.Inv
import Verif.Perm.Props2

/-! # Properties C14, C15, C21 and C54, C55: inversion counts, ranks, factorial number system -/

namespace Verif.P
open Verif.Py

/-! ## C14: inversion counts and decoders -/

theorem C14_right_decode (p : List Nat) (hp : p.Perm (List.range p.length)) :
    rightInversionCountToPermutation (rightInversionCount p) = .ok p := by
  unfold rightInversionCountToPermutation
  rw [rightInversionCount_eq, length_ricRec, rightLoop_ricRec p _ [] (range_pairwise _) hp]
  rfl

/-- Every vector with small enough entries is the right inversion count of exactly one arrangement. -/
theorem C14_right_encode (v : List Nat) (hv : ∀ i (h : i < v.length), v[i] < v.length - i) :
    ∃ p, rightInversionCountToPermutation v = .ok p ∧ p.Perm (List.range v.length) ∧ rightInversionCount p = v := by
  obtain ⟨p, p1, p2, p3⟩ := rightLoop_spec v (List.range v.length) [] (range_pairwise _) (by simp) hv
  exact ⟨p, p1, p2, by rw [rightInversionCount_eq, p3]⟩

theorem C14_right_error (v : List Nat) (hv : ¬ ∀ i (h : i < v.length), v[i] < v.length - i) :
    rightInversionCountToPermutation v = .error .indexError :=
  rightLoop_error v _ _ (by simp) hv

theorem leftDecode_eq (v : List Nat) : leftInversionCountToPermutation v =
    (rightInversionCountToPermutation v.reverse).map (fun r => (r.map (v.length - 1 - ·)).reverse) := by
  unfold leftInversionCountToPermutation rightInversionCountToPermutation
  rw [leftLoop_eq v.length _ _ _ [] (by simp), List.length_reverse]

theorem C14_left_decode (p : List Nat) (hp : p.Perm (List.range p.length)) :
    leftInversionCountToPermutation (leftInversionCount p) = .ok p := by
  have hlt := perm_range_lt hp
  rw [leftDecode_eq, leftInversionCount_eq hlt, List.reverse_reverse, C14_right_decode _ (revComp_perm hp)]
  have hl : (rightInversionCount (revComp p)).reverse.length = (revComp p).length := by
    simp [rightInversionCount]
  rw [hl]
  exact congrArg Except.ok (revComp_revComp hlt)

theorem reverse_bound {v : List Nat} (hv : ∀ i (h : i < v.length), v[i] ≤ i) :
    ∀ i (h : i < v.reverse.length), v.reverse[i] < v.reverse.length - i := by
  intro i hi
  rw [List.getElem_reverse]
  have hi' : i < v.length := by simpa using hi
  have := hv (v.length - 1 - i) (by omega)
  rw [List.length_reverse]; omega

theorem C14_left_encode (v : List Nat) (hv : ∀ i (h : i < v.length), v[i] ≤ i) :
    ∃ p, leftInversionCountToPermutation v = .ok p ∧ p.Perm (List.range v.length) ∧ leftInversionCount p = v := by
  obtain ⟨q, q1, q2, q3⟩ := C14_right_encode v.reverse (reverse_bound hv)
  rw [List.length_reverse] at q2
  have hql : q.length = v.length := by rw [q2.length_eq]; simp
  have hq : q.Perm (List.range q.length) := by rw [hql]; exact q2
  refine ⟨revComp q, ?_, ?_, ?_⟩
  · rw [leftDecode_eq, q1, ← hql]; rfl
  · have := revComp_perm hq; rw [length_revComp, hql] at this; exact this
  · rw [leftInversionCount_eq (perm_range_lt (revComp_perm hq)), revComp_revComp (perm_range_lt hq), q3,
      List.reverse_reverse]

theorem C14_left_error (v : List Nat) (hv : ¬ ∀ i (h : i < v.length), v[i] ≤ i) :
    leftInversionCountToPermutation v = .error .indexError := by
  rw [leftDecode_eq, C14_right_error]
  · rfl
  · intro h
    apply hv
    intro i hi
    have := h (v.length - 1 - i) (by simp; omega)
    rw [List.getElem_reverse] at this
    simp only [List.length_reverse] at this
    have e : v.length - 1 - (v.length - 1 - i) = i := by omega
    simp only [e] at this
    omega

example : ∀ i (h : i < [0, 5, 3, 1, 0, 2, 1, 0].length), [0, 5, 3, 1, 0, 2, 1, 0][i] < [0, 5, 3, 1, 0, 2, 1, 0].length - i := by
  decide
example : rightInversionCountToPermutation [0, 5, 3, 1, 0, 2, 1, 0] = .ok [0, 6, 4, 2, 1, 7, 5, 3] := by decide
example : leftInversionCountToPermutation [0, 0, 1, 2, 3, 0, 2, 4] = .ok [0, 6, 4, 2, 1, 7, 5, 3] := by decide
example : leftInversionCountToPermutation [0, 2] = .error .indexError := by decide

theorem inversionVectorLoop_spec (p : List Nat) (hp : p.Perm (List.range p.length)) :
    ∀ (n k : Nat) (v : List Nat), k + n = p.length → v.length = p.length →
    (∀ i < k, v.getD (p.getD i 0) 0 = (leftInversionCount p).getD i 0) →
    ∃ w, inversionVectorLoop p (List.range' k n) v = .ok w ∧ w.length = p.length ∧
      ∀ i < p.length, w.getD (p.getD i 0) 0 = (leftInversionCount p).getD i 0 := by
  have hlt : ∀ i < p.length, p.getD i 0 < p.length := by
    intro i hi; rw [getD_of_lt hi]; exact perm_range_lt hp _ (List.getElem_mem hi)
  have hnd : p.Nodup := hp.nodup_iff.2 List.nodup_range
  have hinj : ∀ i < p.length, ∀ j < p.length, p.getD i 0 = p.getD j 0 → i = j := by
    intro i hi j hj h
    rw [getD_of_lt hi, getD_of_lt hj] at h
    exact (List.Nodup.getElem_inj_iff hnd).1 h
  intro n
  induction n with
  | zero => intro k v hk hv h; exact ⟨v, rfl, hv, fun i hi => h i (by omega)⟩
  | succ n ih =>
    intro k v hk hv h
    rw [List.range'_succ]
    unfold inversionVectorLoop
    simp only
    rw [if_pos (by rw [hv]; exact hlt k (by omega))]
    apply ih (k + 1) _ (by omega) (by simpa using hv)
    intro i hi
    by_cases hik : i = k
    · subst hik
      have h1 : p.getD i 0 < v.length := by rw [hv]; exact hlt i (by omega)
      have h2 : i < p.length := by omega
      have h4 : (leftInversionCount p).getD i 0 =
          (List.range i).countP (fun k => p.getD k 0 > p.getD i 0) := by
        simp [leftInversionCount, List.getD, h2]
      rw [h4]
      generalize (List.range i).countP (fun k => p.getD k 0 > p.getD i 0) = c
      simp [List.getD] at h1 ⊢
      simp [h1]
    · have h1 : p.getD k 0 ≠ p.getD i 0 := fun h' => hik (hinj k (by omega) i (by omega) h').symm
      have h3 := h i (by omega)
      simp only [List.getD] at h1 h3 ⊢
      rw [List.getElem?_set_ne h1]
      exact h3

/-- `inversion_vector` has the left inversion count of place `i` at place `p[i]`. -/
theorem C14_inversion_vector (p : List Nat) (hp : p.Perm (List.range p.length)) :
    ∃ w, inversionVector p = .ok w ∧ w.length = p.length ∧
      ∀ i (h : i < p.length), w[p[i]]? = (leftInversionCount p)[i]? := by
  obtain ⟨w, w1, w2, w3⟩ := inversionVectorLoop_spec p hp p.length 0 (List.replicate p.length 0) (by simp) (by simp)
    (by simp)
  refine ⟨w, by unfold inversionVector; rw [List.range_eq_range']; exact w1, w2, ?_⟩
  intro i hi
  have h1 := w3 i hi
  have h2 : p[i] < w.length := by rw [w2]; exact perm_range_lt hp _ (List.getElem_mem hi)
  have h3 : i < (leftInversionCount p).length := by simpa [leftInversionCount] using hi
  rw [getD_of_lt hi, getD_of_lt h2, getD_of_lt h3] at h1
  rw [List.getElem?_eq_getElem h2, List.getElem?_eq_getElem h3, h1]

example : inversionVector [0, 6, 4, 2, 1, 7, 5, 3] = .ok [0, 3, 2, 4, 1, 2, 0, 0] := by decide

/-! ## C21: factorial number system -/

theorem C21_factoradic (n : Nat) :
    ∃ ds, intToFactoradic n = .ok ds ∧ (∀ i (h : i < ds.length), ds[i] ≤ i) ∧
      (ds.zipIdx.map (fun di => di.1 * Nat.factorial di.2)).sum = n ∧
      (∀ x, ds.getLast? = some x → x ≠ 0) ∧
      -- uniqueness
      ∀ es : List Nat, (∀ i (h : i < es.length), es[i] ≤ i) → (∀ x, es.getLast? = some x → x ≠ 0) →
        (es.zipIdx.map (fun di => di.1 * Nat.factorial di.2)).sum = n → es = ds := by
  obtain ⟨ds, d1, d2, d3⟩ := intToFactoradic_spec n
  refine ⟨ds, d1, fun i h => by have := d2.1 i h; omega, ?_, d2.2, ?_⟩
  · have := fromFactoradic_eq ds
    rw [d3] at this
    exact this
  · intro es h1 h2 h3
    apply Digits.unique (d := 1) (by omega) ⟨fun i h => by have := h1 i h; omega, h2⟩ d2
    rw [d3, ← h3, ← fromFactoradic_eq]
    rfl

example : intToFactoradic 28848 = .ok [0, 0, 0, 0, 2, 0, 5, 5] := by decide

/-! ## C15: ranks and permutations -/

theorem leftInversionCount_le (p : List Nat) (i : Nat) (h : i < (leftInversionCount p).length) :
    (leftInversionCount p)[i] ≤ i := by
  simp only [leftInversionCount, List.getElem_map, List.getElem_range]
  have := List.countP_le_length (p := fun k => decide (p.getD k 0 > p.getD i 0)) (l := List.range i)
  simpa using this

theorem getLast?_leftInversionCount {p : List Nat} {x : Nat} (h : (leftInversionCount p).getLast? = some x) :
    0 < p.length ∧ x = (List.range (p.length - 1)).countP (fun k => p.getD k 0 > p.getD (p.length - 1) 0) := by
  have h0 : 0 < p.length := by
    rcases Nat.eq_zero_or_pos p.length with h1 | h1
    · rw [List.length_eq_zero_iff.1 h1] at h; simp [leftInversionCount] at h
    · exact h1
  refine ⟨h0, ?_⟩
  rw [List.getLast?_eq_getElem?] at h
  simp only [leftInversionCount, List.length_map, List.length_range, List.getElem?_map] at h
  rw [List.getElem?_eq_getElem (by simpa using (by omega : p.length - 1 < p.length))] at h
  simpa using h.symm

/-- The last digit is zero iff the last element is in place. -/
theorem last_digit {p : List Nat} (hp : p.Perm (List.range p.length)) (h0 : 0 < p.length) :
    (List.range (p.length - 1)).countP (fun k => p.getD k 0 > p.getD (p.length - 1) 0) = 0 ↔
      p.getD (p.length - 1) 0 = p.length - 1 := by
  have hlt := perm_range_lt hp
  have hnd : p.Nodup := hp.nodup_iff.2 List.nodup_range
  rw [List.countP_eq_zero]
  constructor
  · intro h
    have hm : p.length - 1 ∈ p := hp.mem_iff.2 (List.mem_range.2 (by omega))
    obtain ⟨j, hj, hj2⟩ := List.getElem_of_mem hm
    by_cases hj3 : j = p.length - 1
    · rw [← hj3, getD_of_lt hj, hj2, hj3]
    · have := h j (List.mem_range.2 (by omega))
      rw [getD_of_lt hj, hj2] at this
      have h4 : p.getD (p.length - 1) 0 < p.length := by
        rw [getD_of_lt (by omega)]; exact hlt _ (List.getElem_mem _)
      rw [decide_eq_true_eq] at this
      omega
  · intro h k hk
    rw [h]
    have hk' : k < p.length := by have := List.mem_range.1 hk; omega
    rw [getD_of_lt hk']
    have := hlt _ (List.getElem_mem hk')
    simp; omega

theorem sequence_finite {p : Perm} (hf : p.perilen = none) :
    p.sequence = .ok ((List.range p.length).map p.get) := by
  simp [Perm.sequence, hf]

theorem sequence_perm {p : Perm} (hp : Constructed p) (hf : p.perilen = none) :
    ((List.range p.length).map p.get).Perm (List.range ((List.range p.length).map p.get).length) := by
  have hlen : ((List.range p.length).map p.get).length = p.length := by simp
  rw [hlen]
  exact surj_below hp.wf.get_bijective.1 (hp.wf.maps_below _ (Or.inl ⟨hf, Nat.le_refl _⟩))

theorem last_moved {p : Perm} (hp : Constructed p) (hf : p.perilen = none) (h0 : 0 < p.length) :
    p.get (p.length - 1) ≠ p.length - 1 := by
  intro h
  have := (C05_length_minimal p hp hf (p.length - 1)).1 (by
    intro i hi
    by_cases hi2 : i = p.length - 1
    · rw [hi2, h]
    · exact hp.wf.finite_bounded hf (by omega))
  omega

theorem digits_lic {p : Perm} (hp : Constructed p) (hf : p.perilen = none) :
    Digits 1 (leftInversionCount ((List.range p.length).map p.get)) := by
  refine ⟨fun i h => by have := leftInversionCount_le _ i h; omega, ?_⟩
  intro x hx
  obtain ⟨h0, rfl⟩ := getLast?_leftInversionCount hx
  have hs := sequence_perm hp hf
  rw [Ne, last_digit hs h0]
  have h1 : 0 < p.length := by simpa using h0
  have := last_moved hp hf h1
  have h2 : p.length - 1 < p.length := by omega
  simpa [List.getD, h2] using this

theorem leftRank_eq {p : Perm} (hp : Constructed p) (hf : p.perilen = none) :
    p.leftRank = .ok (valFrom 1 (leftInversionCount ((List.range p.length).map p.get))) := by
  unfold Perm.leftRank
  rw [hf]
  simp only
  split
  · rename_i hn
    have := (hp.wf.neutral_perilen hn).2
    rw [this]
    simp [leftInversionCount, valFrom]
  · rw [sequence_finite hf]
    simp only [fromFactoradic_eq]

theorem C15_rank_of_int (n : Nat) : ∃ p, intToPerm n = .ok p ∧ Constructed p ∧ p.perilen = none ∧
    p.leftRank = .ok n := by
  obtain ⟨ds, d1, d2, d3⟩ := intToFactoradic_spec n
  obtain ⟨s, s1, s2, s3⟩ := C14_left_encode ds (fun i h => by have := d2.1 i h; omega)
  have hsl : s.length = ds.length := by rw [s2.length_eq]; simp
  have hs : s.Perm (List.range s.length) := by rw [hsl]; exact s2
  obtain ⟨m, m1, m2, m3⟩ := argMapping_seq hs
  obtain ⟨p, p1, p2, p3, p4⟩ := finish_none m2
  have hmk : mkPerm (.seq s) = .ok p := by unfold mkPerm; rw [m1]; exact p1
  have hc : Constructed p := ⟨.seq s, none, trivial, hmk⟩
  have hget : ∀ i, p.get i = (s[i]?).getD i := fun i => by rw [p4, m3]
  refine ⟨p, ?_, hc, p3, ?_⟩
  · unfold intToPerm; rw [d1]; simp only; rw [s1]; exact hmk
  · have hlen : p.length = s.length := by
      apply Nat.le_antisymm
      · rw [← C05_length_minimal p hc p3]
        intro i hi; rw [hget, List.getElem?_eq_none hi]; rfl
      · by_contra hlt
        have h0 : 0 < s.length := by omega
        have hle : p.length ≤ s.length - 1 := by omega
        have hfix : p.get (s.length - 1) = s.length - 1 := hc.wf.finite_bounded p3 hle
        have h1 : s.length - 1 < s.length := by omega
        rw [hget, List.getElem?_eq_getElem h1] at hfix
        have h5 := (last_digit hs h0).2 (by rw [getD_of_lt h1]; simpa using hfix)
        have hne : leftInversionCount s ≠ [] := by
          rw [s3]; intro h; rw [h, List.length_nil] at hsl; omega
        obtain ⟨x, hx⟩ : ∃ x, (leftInversionCount s).getLast? = some x :=
          ⟨_, List.getLast?_eq_some_getLast hne⟩
        obtain ⟨_, h6⟩ := getLast?_leftInversionCount hx
        rw [s3] at hx
        exact d2.2 x hx (by rw [h6]; exact h5)
    have hseq : (List.range p.length).map p.get = s := by
      rw [hlen]
      apply List.ext_getElem
      · simp
      · intro i h1 h2; simp [hget, h2]
    rw [leftRank_eq hc p3, hseq, s3, d3]

theorem C15_int_of_rank (p : Perm) (hp : Constructed p) (hf : p.perilen = none) :
    ∃ n, p.leftRank = .ok n ∧ OkEq (intToPerm n) (.ok p) := by
  refine ⟨_, leftRank_eq hp hf, ?_⟩
  generalize hn : valFrom 1 (leftInversionCount ((List.range p.length).map p.get)) = n
  obtain ⟨ds, d1, d2, d3⟩ := intToFactoradic_spec n
  have hds : ds = leftInversionCount ((List.range p.length).map p.get) :=
    Digits.unique (by omega) d2 (digits_lic hp hf) (by rw [d3, hn])
  have := C11_roundtrip_finite p hp hf p.length (Nat.le_refl _)
  rw [((C11_sequence p p.length).1 hf).1 (Nat.le_refl _)] at this
  unfold intToPerm
  rw [d1]
  simp only
  rw [hds, C14_left_decode _ (sequence_perm hp hf)]
  exact this

theorem C15_periodic (p : Perm) (l : Nat) (h : p.perilen = some l) : p.leftRank = .error .permNotFinite := by
  unfold Perm.leftRank; rw [h]

example : (mkPerm (.seq [0, 3, 5, 6, 4, 7, 1, 2])).bind Perm.leftRank = .ok 28848 := by decide
example : (intToPerm 28848).bind (fun p => p.sequence) = .ok [0, 3, 5, 6, 4, 7, 1, 2] := by decide

/-! ## C54, C55: the order given by the ranks -/

/-- Rank of an arrangement by its right inversion counts. -/
def rankR : List Nat → Nat
  | [] => 0
  | x :: xs => xs.countP (· < x) * Nat.factorial xs.length + rankR xs

theorem rankR_lt (s : List Nat) : rankR s < Nat.factorial s.length := by
  induction s with
  | nil => simp [rankR]
  | cons x xs ih =>
    unfold rankR
    rw [List.length_cons, Nat.factorial_succ]
    have h1 := List.countP_le_length (p := fun y => decide (y < x)) (l := xs)
    have h2 := Nat.mul_le_mul_right (Nat.factorial xs.length) h1
    rw [Nat.add_mul, Nat.one_mul]
    omega

theorem sum_zipIdx_append_single (ds : List Nat) (x k : Nat) :
    (((ds ++ [x]).zipIdx k).map (fun di => di.1 * Nat.factorial di.2)).sum =
      ((ds.zipIdx k).map (fun di => di.1 * Nat.factorial di.2)).sum + x * Nat.factorial (ds.length + k) := by
  rw [List.zipIdx_append, List.map_append, List.sum_append]
  simp [Nat.add_comm]

theorem rankR_eq (s : List Nat) : fromFactoradic (rightInversionCount s).reverse = rankR s := by
  rw [rightInversionCount_eq]
  induction s with
  | nil => rfl
  | cons x xs ih =>
    unfold ricRec rankR fromFactoradic
    rw [List.reverse_cons, sum_zipIdx_append_single]
    unfold fromFactoradic at ih
    rw [ih, List.length_reverse, length_ricRec]
    simp [Nat.add_comm]

theorem countP_lt_mono {S : List Nat} {x y : Nat} (hxy : x < y) (hx : x ∈ S) :
    S.countP (· < x) < S.countP (· < y) := by
  induction S with
  | nil => simp at hx
  | cons z zs ih =>
    rw [List.countP_cons, List.countP_cons]
    rcases List.mem_cons.1 hx with rfl | hx
    · have : zs.countP (· < x) ≤ zs.countP (· < y) := by
        apply List.countP_mono_left; intro a _; simp; omega
      simp [hxy]; omega
    · have := ih hx
      by_cases h1 : z < x
      · have : z < y := by omega
        simp [h1, this]; omega
      · by_cases h2 : z < y <;> simp [h1, h2] <;> omega

theorem countP_cons_self (x : Nat) (xs : List Nat) : (x :: xs).countP (· < x) = xs.countP (· < x) := by
  rw [List.countP_cons]; simp

/-- Lexicographic comparison agrees with the comparison of ranks. -/
theorem rankR_lt_iff (s t : List Nat) (h : s.Perm t) : rankR s < rankR t ↔ s < t := by
  induction s generalizing t with
  | nil => rw [List.nil_perm.1 h]; simp
  | cons x xs ih =>
    cases t with
    | nil => simp at h
    | cons y ys =>
      have hl : xs.length = ys.length := by simpa using h.length_eq
      rw [List.cons_lt_cons_iff]
      unfold rankR
      rw [hl]
      rw [← countP_cons_self x xs, ← countP_cons_self y ys, h.countP_eq (fun a => decide (a < x))]
      have b1 := rankR_lt xs
      have b2 := rankR_lt ys
      rw [hl] at b1
      rcases Nat.lt_trichotomy x y with hxy | hxy | hxy
      · have hm := countP_lt_mono hxy (h.mem_iff.1 (by simp : x ∈ x :: xs))
        have := Nat.mul_le_mul_right (Nat.factorial ys.length) (Nat.succ_le_of_lt hm)
        rw [Nat.succ_mul] at this
        constructor
        · intro _; exact Or.inl hxy
        · intro _; omega
      · subst hxy
        have := ih ys h.cons_inv
        simp only [lt_irrefl, true_and, false_or, ← this]
        omega
      · have hm := countP_lt_mono hxy (by simp : y ∈ y :: ys)
        have := Nat.mul_le_mul_right (Nat.factorial ys.length) (Nat.succ_le_of_lt hm)
        rw [Nat.succ_mul] at this
        constructor
        · intro _; omega
        · rintro (h1 | ⟨h1, _⟩) <;> omega

theorem rightRank_eq {p : Perm} (hf : p.perilen = none) :
    p.rightRank = .ok (rankR ((List.range p.length).map p.get)) := by
  unfold Perm.rightRank
  rw [hf]
  simp only
  rw [sequence_finite hf]
  simp only [rankR_eq]

/-- Among permutations of equal length, `right_rank` is the lexicographic order of the sequences,
and it is below the factorial of the length. -/
theorem C54_right_rank_lex (p q : Perm) (hp : Constructed p) (hq : Constructed q) (hpf : p.perilen = none)
    (hqf : q.perilen = none) (hl : p.length = q.length) :
    ∃ m n s t, p.rightRank = .ok m ∧ q.rightRank = .ok n ∧ p.sequence = .ok s ∧ q.sequence = .ok t ∧
      (m < n ↔ s < t) ∧ (m = n ↔ p.eq q = true) ∧ m < Nat.factorial p.length := by
  have hs := sequence_perm hp hpf
  have ht := sequence_perm hq hqf
  have hperm : ((List.range p.length).map p.get).Perm ((List.range q.length).map q.get) := by
    refine hs.trans ?_
    rw [List.length_map, List.length_range, hl]
    simpa using ht.symm
  refine ⟨_, _, _, _, rightRank_eq hpf, rightRank_eq hqf, sequence_finite hpf, sequence_finite hqf,
    rankR_lt_iff _ _ hperm, ?_, by simpa using rankR_lt ((List.range p.length).map p.get)⟩
  rw [C05_eq_extensional p q hp hq]
  constructor
  · intro h i
    have h1 := rankR_lt_iff _ _ hperm
    have h2 := rankR_lt_iff _ _ hperm.symm
    rw [h] at h1 h2
    have heq : (List.range p.length).map p.get = (List.range q.length).map q.get := by
      exact List.le_antisymm (fun h3 => absurd (h2.2 h3) (lt_irrefl _)) (fun h3 => absurd (h1.2 h3) (lt_irrefl _))
    by_cases hi : i < p.length
    · have := congrArg (fun l => l[i]?) heq
      simpa [hi, hl ▸ hi] using this
    · rw [hp.wf.finite_bounded hpf (by omega), hq.wf.finite_bounded hqf (by omega)]
  · intro h
    have : p.get = q.get := funext h
    rw [this, hl]

/-- Permutations of different lengths can have the same `right_rank`. -/
theorem C54_right_rank_not_injective : ∃ p q, Constructed p ∧ Constructed q ∧ p.eq q = false ∧
    p.rightRank = q.rightRank := by
  refine ⟨⟨false, [(0, 1), (1, 0)], none, 2⟩, ⟨false, [(1, 2), (2, 1)], none, 3⟩,
    constructed_of (arg := .seq [1, 0]) (l := none) trivial (by decide),
    constructed_of (arg := .seq [0, 2, 1]) (l := none) trivial (by decide), by decide, by decide⟩

example : (mkPerm (.seq [0, 3, 5, 6, 4, 7, 1, 2])).bind Perm.rightRank = .ok 1888 := by decide

/-- Left inversion counts of a prolonged sequence. -/
theorem valFrom_append_zeros (ds : List Nat) (d k : Nat) : valFrom d (ds ++ List.replicate k 0) = valFrom d ds := by
  induction ds generalizing d with
  | nil =>
    simp only [List.nil_append]
    induction k generalizing d with
    | zero => rfl
    | succ k ih => have := ih (d + 1); simp only [valFrom] at this; simp [List.replicate_succ, valFrom, this]
  | cons x xs ih => rw [List.cons_append, valFrom, valFrom, ih]

theorem lic_extend {f : Nat → Nat} {n k : Nat} (hb : ∀ i < n, f i < n) (hf : ∀ i, n ≤ i → f i = i) :
    leftInversionCount ((List.range (n + k)).map f) =
      leftInversionCount ((List.range n).map f) ++ List.replicate k 0 := by
  apply List.ext_getElem
  · simp [leftInversionCount]
  · intro i h1 h2
    have hi : i < n + k := by simpa [leftInversionCount] using h1
    have hD : ∀ N j, j < N → ((List.range N).map f).getD j 0 = f j := by
      intro N j hj; simp [List.getD, hj]
    by_cases hin : i < n
    · rw [List.getElem_append_left (by simpa [leftInversionCount] using hin)]
      simp only [leftInversionCount, List.getElem_map, List.getElem_range, List.length_map, List.length_range]
      apply List.countP_congr
      intro j hj
      rw [List.mem_range] at hj
      rw [hD _ _ (by omega), hD _ _ hi, hD _ _ (by omega), hD _ _ hin]
    · rw [List.getElem_append_right (by simpa [leftInversionCount] using hin)]
      simp only [leftInversionCount, List.getElem_map, List.getElem_range, List.getElem_replicate]
      rw [List.countP_eq_zero]
      intro j hj
      rw [List.mem_range] at hj
      rw [hD _ _ (by omega), hD _ _ hi, hf i (by omega)]
      by_cases hjn : j < n
      · have := hb j hjn; simp; omega
      · rw [hf j (by omega)]; simp; omega

theorem leftRank_extend {p : Perm} (hp : Constructed p) (hf : p.perilen = none) {N : Nat} (hN : p.length ≤ N) :
    p.leftRank = .ok (rankR (revComp ((List.range N).map p.get))) := by
  obtain ⟨k, rfl⟩ := Nat.exists_eq_add_of_le hN
  have hb := hp.wf.maps_below p.length (Or.inl ⟨hf, Nat.le_refl _⟩)
  have hb2 := hp.wf.maps_below (p.length + k) (Or.inl ⟨hf, hN⟩)
  rw [leftRank_eq hp hf, ← valFrom_append_zeros _ 1 k,
    ← lic_extend hb (fun i hi => hp.wf.finite_bounded hf hi), leftInversionCount_eq, ← fromFactoradic_eq, rankR_eq]
  intro x hx
  obtain ⟨i, hi, rfl⟩ := List.mem_map.1 hx
  simpa using hb2 i (List.mem_range.1 hi)

theorem map_comp_lt {n : Nat} (s t : List Nat) (hs : ∀ x ∈ s, x < n) (ht : ∀ x ∈ t, x < n)
    (hl : s.length = t.length) : s.map (n - 1 - ·) < t.map (n - 1 - ·) ↔ t < s := by
  induction s generalizing t with
  | nil => cases t with
    | nil => simp
    | cons _ _ => simp at hl
  | cons x xs ih =>
    cases t with
    | nil => simp at hl
    | cons y ys =>
      rw [List.map_cons, List.map_cons, List.cons_lt_cons_iff, List.cons_lt_cons_iff,
        ih ys (fun a ha => hs a (by simp [ha])) (fun a ha => ht a (by simp [ha])) (by simpa using hl)]
      have := hs x (by simp)
      have := ht y (by simp)
      constructor
      · rintro (h | ⟨h1, h2⟩)
        · left; omega
        · right; exact ⟨by omega, h2⟩
      · rintro (h | ⟨h1, h2⟩)
        · left; omega
        · right; exact ⟨by omega, h2⟩

/-- `left_rank` is the reverse colexicographic order: reading both sequences backwards (filled up to
any common length), the permutation with the lexicographically larger list has the smaller rank. -/
theorem C55_left_rank_order (p q : Perm) (hp : Constructed p) (hq : Constructed q) (hpf : p.perilen = none)
    (hqf : q.perilen = none) (N : Nat) (hpN : p.length ≤ N) (hqN : q.length ≤ N) :
    ∃ m n, p.leftRank = .ok m ∧ q.leftRank = .ok n ∧
      (m < n ↔ ((List.range N).map q.get).reverse < ((List.range N).map p.get).reverse) := by
  refine ⟨_, _, leftRank_extend hp hpf hpN, leftRank_extend hq hqf hqN, ?_⟩
  have bp := hp.wf.maps_below N (Or.inl ⟨hpf, hpN⟩)
  have bq := hq.wf.maps_below N (Or.inl ⟨hqf, hqN⟩)
  have sp := surj_below hp.wf.get_bijective.1 bp
  have sq := surj_below hq.wf.get_bijective.1 bq
  have hperm : (revComp ((List.range N).map p.get)).Perm (revComp ((List.range N).map q.get)) := by
    have h1 := revComp_perm (p := (List.range N).map p.get) (by simpa using sp)
    have h2 := revComp_perm (p := (List.range N).map q.get) (by simpa using sq)
    rw [length_revComp, List.length_map, List.length_range] at h1 h2
    exact h1.trans h2.symm
  rw [rankR_lt_iff _ _ hperm]
  unfold revComp
  rw [← List.map_reverse (f := fun x => _ - 1 - x), ← List.map_reverse (f := fun x => _ - 1 - x), List.length_map,
    List.length_map, List.length_range]
  apply map_comp_lt
  · intro x hx
    rw [List.mem_reverse] at hx
    obtain ⟨i, hi, rfl⟩ := List.mem_map.1 hx
    exact bp i (List.mem_range.1 hi)
  · intro x hx
    rw [List.mem_reverse] at hx
    obtain ⟨i, hi, rfl⟩ := List.mem_map.1 hx
    exact bq i (List.mem_range.1 hi)
  · simp

example : (do let p ← mkPerm (.seq [1, 0]); p.leftRank) = .ok 1 ∧
    (do let p ← mkPerm (.seq [0, 2, 1]); p.leftRank) = .ok 2 := by decide

end Verif.P
