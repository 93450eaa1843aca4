import Verif.SigPerm.Model
import Verif.Perm.Props3
import Verif.Binv.Props

/-!
# Signed permutations: semantics of the model
-/

namespace Verif.SG
open Verif.Py Verif.P Verif.BV Verif.A

/-! ### signed numbers -/

/-- absolute value: `n` for `n` and `~n` -/
def nabs (z : Int) : Nat := (logicAbs z).toNat

theorem logicAbs_eq (z : Int) : logicAbs z = nabs z := by
  unfold nabs
  rw [Int.toNat_of_nonneg (logicAbs_nonneg z)]

theorem nabs_cases (z : Int) : (0 ≤ z ∧ z = nabs z) ∨ (z < 0 ∧ z = inv (nabs z)) := by
  unfold nabs logicAbs inv
  split <;> omega

theorem nabs_nat (n : Nat) : nabs (n : Int) = n := by unfold nabs logicAbs; split <;> omega

theorem nabs_inv (z : Int) : nabs (inv z) = nabs z := by
  unfold nabs logicAbs inv
  split <;> split <;> omega

theorem inv_neg (z : Int) : inv z < 0 ↔ 0 ≤ z := by unfold inv; omega

theorem signed_ext {y z : Int} (h : nabs y = nabs z) (hs : y < 0 ↔ z < 0) : y = z := by
  rcases nabs_cases y with ⟨h1, h2⟩ | ⟨h1, h2⟩ <;> rcases nabs_cases z with ⟨h3, h4⟩ | ⟨h3, h4⟩
  · rw [h2, h4, h]
  · omega
  · omega
  · rw [h2, h4, h]

/-- A function on the natural numbers continued to all integers, so that `~n` is sent to `~f(n)`. -/
def ext (f : Nat → Int) (z : Int) : Int := if z < 0 then inv (f (nabs z)) else f (nabs z)

theorem ext_nat (f : Nat → Int) (n : Nat) : ext f n = f n := by
  unfold ext
  rw [if_neg (by omega), nabs_nat]

theorem ext_inv (f : Nat → Int) (z : Int) : ext f (inv z) = inv (ext f z) := by
  unfold ext
  rw [nabs_inv]
  by_cases h : z < 0
  · rw [if_pos h, if_neg (by rw [inv_neg]; omega), inv_inv]
  · rw [if_neg h, if_pos (by rw [inv_neg]; omega)]

theorem ext_comp (f g : Nat → Int) (z : Int) : ext (fun i => ext f (g i)) z = ext f (ext g z) := by
  rcases nabs_cases z with ⟨_, h⟩ | ⟨_, h⟩
  · rw [h, ext_nat, ext_nat]
  · rw [h, ext_inv, ext_inv, ext_inv, ext_nat, ext_nat]

theorem ext_id (z : Int) : ext (fun i => (i : Int)) z = z := by
  rcases nabs_cases z with ⟨_, h⟩ | ⟨_, h⟩
  · rw [h, ext_nat]
  · rw [h, ext_inv, ext_nat]

theorem nabs_ext (f : Nat → Int) (z : Int) : nabs (ext f z) = nabs (f (nabs z)) := by
  unfold ext
  split
  · rw [nabs_inv]
  · rfl

/-- `f` is a signed permutation of the numbers below `N`, and fixes the others. -/
structure Signed (f : Nat → Int) (N : Nat) : Prop where
  lt : ∀ i, i < N → nabs (f i) < N
  inj : ∀ i j, i < N → j < N → nabs (f i) = nabs (f j) → i = j
  fix : ∀ i, N ≤ i → f i = i

theorem Signed.mono {f : Nat → Int} {N M : Nat} (h : Signed f N) (hM : N ≤ M) : Signed f M := by
  have hle : ∀ i, N ≤ i → nabs (f i) = i := fun i hi => by rw [h.fix i hi, nabs_nat]
  refine ⟨?_, ?_, fun i hi => h.fix i (by omega)⟩
  · intro i hi
    by_cases hN : i < N
    · have := h.lt i hN; omega
    · rw [hle i (by omega)]; exact hi
  · intro i j _ _ e
    by_cases hi : i < N <;> by_cases hj : j < N
    · exact h.inj i j hi hj e
    · have := h.lt i hi; rw [hle j (by omega)] at e; omega
    · have := h.lt j hj; rw [hle i (by omega)] at e; omega
    · rwa [hle i (by omega), hle j (by omega)] at e

theorem Signed.injective {f : Nat → Int} {N : Nat} (h : Signed f N) : ∀ i j, nabs (f i) = nabs (f j) → i = j := by
  intro i j e
  exact (h.mono (M := max N (max i j + 1)) (by omega)).inj i j (by omega) (by omega) e

theorem Signed.surj {f : Nat → Int} {N : Nat} (h : Signed f N) : ∀ j, ∃ i, nabs (f i) = j := by
  intro j
  have hM := h.mono (M := max N (j + 1)) (by omega)
  have hnd : ((List.range (max N (j + 1))).map (fun i => nabs (f i))).Nodup := by
    rw [List.nodup_map_iff_inj_on (List.nodup_range)]
    intro x hx y hy e
    exact h.injective x y e
  have hsub : (List.range (max N (j + 1))).map (fun i => nabs (f i)) ⊆ List.range (max N (j + 1)) := by
    intro x hx
    obtain ⟨i, hi, rfl⟩ := List.mem_map.1 hx
    rw [List.mem_range] at hi ⊢
    exact hM.lt i hi
  have hperm := (List.subperm_of_subset hnd hsub).perm_of_length_le (by simp)
  have : j ∈ List.range (max N (j + 1)) := by rw [List.mem_range]; omega
  obtain ⟨i, _, e⟩ := List.mem_map.1 (hperm.mem_iff.2 this)
  exact ⟨i, e⟩

theorem Signed.lt_iff {f : Nat → Int} {N : Nat} (h : Signed f N) (i : Nat) : nabs (f i) < N ↔ i < N := by
  constructor
  · intro hi
    by_contra hc
    rw [h.fix i (by omega), nabs_nat] at hi
    omega
  · exact h.lt i

theorem Signed.comp {f g : Nat → Int} {N : Nat} (hf : Signed f N) (hg : Signed g N) : Signed (fun i => ext f (g i)) N := by
  refine ⟨?_, ?_, ?_⟩
  · intro i hi
    rw [nabs_ext]
    exact hf.lt _ (hg.lt i hi)
  · intro i j hi hj e
    rw [nabs_ext, nabs_ext] at e
    exact hg.inj i j hi hj (hf.injective _ _ e)
  · intro i hi
    rw [hg.fix i hi, ext_nat, hf.fix i hi]

/-- The signed inverse. -/
theorem Signed.exists_inverse {f : Nat → Int} {N : Nat} (h : Signed f N) :
    ∃ g, Signed g N ∧ ∀ i, ext g (f i) = i ∧ ext f (g i) = i := by
  choose r hr using h.surj
  have hrf : ∀ i, r (nabs (f i)) = i := fun i => h.injective _ _ (hr _)
  refine ⟨fun j => if f (r j) < 0 then inv (r j) else r j, ⟨?_, ?_, ?_⟩, ?_⟩
  · intro j hj
    have : nabs (if f (r j) < 0 then inv (r j : Int) else r j) = r j := by
      split
      · rw [nabs_inv, nabs_nat]
      · rw [nabs_nat]
    rw [this, ← h.lt_iff, hr]
    exact hj
  · intro i j _ _ e
    have hn : ∀ j, nabs (if f (r j) < 0 then inv (r j : Int) else r j) = r j := by
      intro j
      split
      · rw [nabs_inv, nabs_nat]
      · rw [nabs_nat]
    simp only [hn] at e
    rw [← hr i, ← hr j, e]
  · intro j hj
    have : r j = j := by
      have := hrf j
      rwa [h.fix j hj, nabs_nat] at this
    simp only [this]
    rw [if_neg (by rw [h.fix j hj]; omega)]
  · intro i
    constructor
    · unfold ext
      simp only [hrf]
      by_cases hi : f i < 0
      · rw [if_pos hi, if_pos hi, inv_inv]
      · rw [if_neg hi, if_neg hi]
    · by_cases hi : f (r i) < 0
      · simp only [if_pos hi]
        rw [ext_inv, ext_nat]
        rcases nabs_cases (f (r i)) with ⟨h1, h2⟩ | ⟨h1, h2⟩
        · omega
        · rw [h2, inv_inv, hr]
      · simp only [if_neg hi]
        rw [ext_nat]
        rcases nabs_cases (f (r i)) with ⟨h1, h2⟩ | ⟨h1, h2⟩
        · rw [h2, hr]
        · omega

/-! ### binary vectors -/

theorem requiredLength_le (b : Binv) (k : Nat) : b.requiredLength ≤ k ↔ ∀ i ∈ b.exposet, i < k := by
  unfold Binv.requiredLength
  by_cases h : b.exposet = []
  · rw [if_pos h, h]; simp
  · rw [if_neg h]
    have := maxNat_lt_iff h (n := k)
    unfold maxNat at this
    rw [← this]
    omega

/-- the same with zeros added -/
theorem mem_exposet_append (b : Binv) (k i : Nat) : i ∈ (⟨b.vector ++ List.replicate k false⟩ : Binv).exposet ↔ i ∈ b.exposet := by
  rw [mem_exposet, mem_exposet]
  simp only [List.getElem?_append]
  by_cases h : i < b.vector.length
  · rw [if_pos h]
  · rw [if_neg h, List.getElem?_eq_none (by omega : b.vector.length ≤ i), List.getElem?_replicate]
    split <;> simp

theorem intval_zero_iff (b : Binv) : b.intval = 0 ↔ b.exposet = [] := by
  rw [intval_sum]
  cases b.exposet with
  | nil => simp
  | cons a t => simp

/-! ### well-formed objects -/

/-- The signed value at an index, by the attributes. -/
def SigPerm.val (s : SigPerm) (i : Nat) : Int :=
  if s.perm.get i ∈ s.binv.exposet then inv (s.perm.get i) else s.perm.get i

/-- What the constructor guarantees for a finite permutation. -/
structure WF (s : SigPerm) : Prop where
  constructed : Constructed s.perm
  finite : s.perm.perilen = none
  length : s.length = max s.binv.requiredLength s.perm.length
  unsigned : s.unsigned = decide (s.binv.intval = 0)
  unmoved : s.unmoved = s.perm.neutral
  neutral : s.neutral = (s.unsigned && s.unmoved)

/-- The binary vector is not longer than necessary. -/
def Canon (s : SigPerm) : Prop := s.binv.length = s.length

theorem nabs_val (s : SigPerm) (i : Nat) : nabs (s.val i) = s.perm.get i := by
  unfold SigPerm.val
  split
  · rw [nabs_inv, nabs_nat]
  · rw [nabs_nat]

theorem val_neg (s : SigPerm) (i : Nat) : s.val i < 0 ↔ s.perm.get i ∈ s.binv.exposet := by
  unfold SigPerm.val
  split
  · next h => simp only [h, iff_true]; rw [inv_neg]; omega
  · next h => simp only [h, iff_false]; omega

theorem WF.exposet_lt {s : SigPerm} (h : WF s) {i : Nat} (hi : i ∈ s.binv.exposet) : i < s.length := by
  have := (requiredLength_le s.binv s.length).1 (by rw [h.length]; omega)
  exact this i hi

theorem WF.perm_le {s : SigPerm} (h : WF s) : s.perm.length ≤ s.length := by rw [h.length]; omega

theorem WF.signed {s : SigPerm} (h : WF s) : Signed s.val s.length := by
  have hle := h.perm_le
  refine ⟨?_, ?_, ?_⟩
  · intro i hi
    rw [nabs_val]
    exact h.constructed.wf.maps_below s.length (Or.inl ⟨h.finite, hle⟩) i hi
  · intro i j _ _ e
    rw [nabs_val, nabs_val] at e
    exact h.constructed.wf.get_bijective.1 e
  · intro i hi
    have : s.perm.get i = i := h.constructed.wf.finite_bounded h.finite (by omega)
    unfold SigPerm.val
    rw [this, if_neg]
    intro hm
    have := h.exposet_lt hm
    omega

theorem WF.sequenceMinimal {s : SigPerm} (h : WF s) : s.sequenceMinimal = .ok ((List.range s.length).map s.val) := by
  unfold SigPerm.sequenceMinimal
  rw [((C11_sequence s.perm s.length).1 h.finite).1 h.perm_le]
  simp only
  unfold logicNegateVector
  simp only
  have habs : logicAbsVector (((List.range s.length).map s.perm.get).map Int.ofNat) =
      ((List.range s.length).map s.perm.get).map Int.ofNat := by
    unfold logicAbsVector
    rw [List.map_map]
    apply List.map_congr_left
    intro x _
    show logicAbs (x : Int) = x
    unfold logicAbs
    rw [if_neg (by omega)]
  rw [if_pos, if_pos]
  · congr 1
    rw [habs]
    unfold zipBy
    rw [zipWith_self, List.map_map, List.map_map]
    apply List.map_congr_left
    intro i _
    simp only [Function.comp]
    unfold SigPerm.val
    have : ((s.binv.exposet.map Int.ofNat).contains (Int.ofNat (s.perm.get i)) = true) ↔ s.perm.get i ∈ s.binv.exposet := by
      rw [List.contains_iff_mem, List.mem_map]
      constructor
      · rintro ⟨x, hx, e⟩
        have : x = s.perm.get i := Int.ofNat.inj e
        rwa [← this]
      · intro hx; exact ⟨_, hx, rfl⟩
    by_cases hc : s.perm.get i ∈ s.binv.exposet
    · rw [if_pos (this.2 hc), if_pos hc]; rfl
    · rw [if_neg (fun h' => hc (this.1 h')), if_neg hc]; rfl
  · rw [habs, List.all_eq_true]
    intro x hx
    obtain ⟨i, hi, rfl⟩ := List.mem_map.1 hx
    rw [List.contains_iff_mem, List.mem_map]
    refine ⟨i, ?_, rfl⟩
    have hlt := h.exposet_lt hi
    obtain ⟨j, hj⟩ := h.constructed.wf.get_bijective.2 i
    refine List.mem_map.2 ⟨j, ?_, hj⟩
    rw [List.mem_range, ← h.signed.lt_iff, nabs_val, hj]
    exact hlt
  · rw [List.all_eq_true]
    intro x hx
    obtain ⟨i, hi, rfl⟩ := List.mem_map.1 hx
    simp

theorem WF.sequence {s : SigPerm} (h : WF s) (n : Nat) :
    (s.length ≤ n → s.sequence (some n) = .ok ((List.range n).map s.val)) ∧
    (n < s.length → s.sequence (some n) = .error .valueError) := by
  constructor
  · intro hn
    unfold SigPerm.sequence
    simp only
    rw [if_pos hn, h.sequenceMinimal]
    simp only [Except.map]
    congr 1
    have : List.range n = List.range s.length ++ List.range' s.length (n - s.length) := by
      have := List.range'_append_1 (s := 0) (m := s.length) (n := n - s.length)
      rw [Nat.zero_add] at this
      rw [List.range_eq_range', List.range_eq_range', this]
      congr 1; omega
    rw [this, List.map_append]
    congr 1
    apply List.map_congr_left
    intro i hi
    rw [List.mem_range'_1] at hi
    rw [h.signed.fix i hi.1]; rfl
  · intro hn
    unfold SigPerm.sequence
    simp only
    rw [if_neg (by omega)]

theorem WF.sequence_none {s : SigPerm} (h : WF s) : s.sequence none = .ok ((List.range s.length).map s.val) := by
  rw [← (h.sequence s.length).1 (Nat.le_refl _)]
  unfold SigPerm.sequence
  simp

theorem build_spec {p : Perm} (hp : Constructed p) (hf : p.perilen = none) (raw : Binv) :
    ∃ s, build p raw = .ok s ∧ WF s ∧ s.perm = p ∧ (∀ i, i ∈ s.binv.exposet ↔ i ∈ raw.exposet) ∧
      (Canon s ↔ raw.length ≤ s.length) := by
  unfold build
  simp only [ofBools_eq]
  have hm : ∀ i, i ∈ (⟨raw.vector ++ List.replicate (max raw.requiredLength p.length - raw.length) false⟩ : Binv).exposet ↔
      i ∈ raw.exposet := mem_exposet_append raw _
  refine ⟨_, rfl, ⟨hp, hf, ?_, rfl, rfl, rfl⟩, rfl, hm, ?_⟩
  · simp only
    congr 1
    apply Nat.le_antisymm
    · rw [requiredLength_le]
      intro i hi
      exact (requiredLength_le _ _).1 (Nat.le_refl _) i ((hm i).2 hi)
    · rw [requiredLength_le]
      intro i hi
      exact (requiredLength_le _ _).1 (Nat.le_refl _) i ((hm i).1 hi)
  · unfold Canon Binv.length
    simp only [List.length_append, List.length_replicate]
    omega

/-- the natural numbers of a list of signed values -/
theorem perm_of_signed {f : Nat → Int} {N : Nat} (h : Signed f N) :
    (((((List.range N).map f).map logicAbs).map Int.toNat)).Perm
      (List.range (((((List.range N).map f).map logicAbs).map Int.toNat)).length) := by
  have e : (((List.range N).map f).map logicAbs).map Int.toNat = (List.range N).map (fun i => nabs (f i)) := by
    rw [List.map_map, List.map_map]; rfl
  rw [e]
  have hnd : ((List.range N).map (fun i => nabs (f i))).Nodup := by
    rw [List.nodup_map_iff_inj_on (List.nodup_range)]
    intro x hx y hy e
    exact h.injective x y e
  rw [List.length_map, List.length_range]
  refine (List.subperm_of_subset hnd ?_).perm_of_length_le (by simp)
  intro x hx
  obtain ⟨i, hi, rfl⟩ := List.mem_map.1 hx
  rw [List.mem_range] at hi ⊢
  exact h.lt i hi

theorem buildSequence_spec {f : Nat → Int} {N : Nat} (h : Signed f N) :
    ∃ s, buildSequence ((List.range N).map f) = .ok s ∧ WF s ∧ Canon s ∧ s.val = f := by
  obtain ⟨p, p1, p2, p3, _⟩ := (C01_perm_of_list _).1 (perm_of_signed h)
  have hp : Constructed p := ⟨.seq _, none, trivial, p1⟩
  have hlen : ((((List.range N).map f).map logicAbs).map Int.toNat).length = N := by simp
  have hget : ∀ i, p.get i = nabs (f i) := by
    intro i
    by_cases hi : i < N
    · rw [p2 i (by rw [hlen]; exact hi)]
      simp [nabs]
    · rw [p3 i (by rw [hlen]; omega), h.fix i (by omega), nabs_nat]
  have hf : p.perilen = none := by
    cases hl : p.perilen with
    | none => rfl
    | some l =>
      obtain ⟨k, hk, hne⟩ := hp.wf.periodic_unbounded hl N
      exact absurd (by rw [hget, h.fix k (by omega), nabs_nat]) hne
  let neg : List Nat := ((List.range N).filter (fun i => decide (f i < 0))).map (fun i => nabs (f i))
  have hneg : (((List.range N).map f).filter (· < 0)).map inv = neg.map Int.ofNat := by
    rw [List.filter_map, List.map_map, List.map_map]
    apply List.map_congr_left
    intro i hi
    have : f i < 0 := by simpa using (List.mem_filter.1 hi).2
    show inv (f i) = (nabs (f i) : Int)
    rcases nabs_cases (f i) with ⟨h1, _⟩ | ⟨_, h2⟩
    · omega
    · conv_lhs => rw [h2, inv_inv]
  obtain ⟨b, b1, b2, b3⟩ := (C26_exposet neg 0).2.2
  obtain ⟨s, s1, s2, s3, s4, s5⟩ := build_spec hp hf b
  have hval : s.val = f := by
    funext i
    apply signed_ext
    · rw [nabs_val, s3, hget]
    · rw [val_neg, s4, s3, hget, b3]
      constructor
      · intro hm
        obtain ⟨j, hj, e⟩ := List.mem_map.1 hm
        have := h.injective _ _ e
        subst this
        simpa using (List.mem_filter.1 hj).2
      · intro hi
        refine List.mem_map.2 ⟨i, List.mem_filter.2 ⟨?_, by simpa using hi⟩, rfl⟩
        rw [List.mem_range]
        by_contra hc
        rw [h.fix i (by omega)] at hi
        omega
  refine ⟨s, ?_, s2, ?_, hval⟩
  · unfold buildSequence
    simp only [p1, hneg, b1, bind, Except.bind]
    exact s1
  · rw [s5, b2]
    intro i hi
    rw [← b3, ← s4] at hi
    exact s2.exposet_lt hi

theorem signed_of_list {l : List Int} (h : ((l.map logicAbs).map Int.toNat).Perm (List.range l.length)) :
    Signed (fun i : Nat => (l[i]?).getD (i : Int)) l.length ∧ (List.range l.length).map (fun i : Nat => (l[i]?).getD (i : Int)) = l := by
  have hget : ∀ i (hi : i < l.length), ((l.map logicAbs).map Int.toNat)[i]'(by simpa using hi) = nabs l[i] := by
    intro i hi; simp [nabs]
  constructor
  · refine ⟨?_, ?_, ?_⟩
    · intro i hi
      simp only [List.getElem?_eq_getElem hi, Option.getD_some]
      have : nabs l[i] ∈ (l.map logicAbs).map Int.toNat := by
        rw [← hget i hi]; exact List.getElem_mem _
      rw [h.mem_iff, List.mem_range] at this
      exact this
    · intro i j hi hj e
      simp only [List.getElem?_eq_getElem hi, List.getElem?_eq_getElem hj, Option.getD_some] at e
      rw [← hget i hi, ← hget j hj] at e
      exact (h.nodup_iff.2 List.nodup_range).getElem_inj_iff.1 e
    · intro i hi
      simp only [List.getElem?_eq_none hi, Option.getD_none]
  · apply List.ext_getElem
    · simp
    · intro i h1 h2
      simp [h2]

/-! ### equality -/

theorem WF.neutral_iff {s : SigPerm} (h : WF s) : s.neutral = true ↔ ∀ i, s.val i = i := by
  rw [h.neutral, h.unsigned, h.unmoved, Bool.and_eq_true, decide_eq_true_iff, intval_zero_iff,
    C05_neutral_iff _ h.constructed]
  constructor
  · rintro ⟨h1, h2⟩ i
    unfold SigPerm.val
    rw [h1, h2]; simp
  · intro h1
    have h2 : ∀ i, s.perm.get i = i := fun i => by rw [← nabs_val, h1, nabs_nat]
    refine ⟨?_, h2⟩
    rw [List.eq_nil_iff_forall_not_mem]
    intro i hi
    have := (val_neg s i).2 (by rw [h2]; exact hi)
    rw [h1] at this
    omega

theorem exposet_iff {s : SigPerm} (h : WF s) (j : Nat) : j ∈ s.binv.exposet ↔ ∃ i, nabs (s.val i) = j ∧ s.val i < 0 := by
  constructor
  · intro hj
    obtain ⟨i, hi⟩ := h.constructed.wf.get_bijective.2 j
    exact ⟨i, by rw [nabs_val, hi], by rw [val_neg, hi]; exact hj⟩
  · rintro ⟨i, h1, h2⟩
    rw [val_neg, ← nabs_val, h1] at h2
    exact h2

theorem WF.length_le {s : SigPerm} (h : WF s) (n : Nat) : s.length ≤ n ↔ ∀ i, n ≤ i → s.val i = i := by
  constructor
  · intro hn i hi
    exact h.signed.fix i (by omega)
  · intro hall
    rw [h.length]
    have h1 : s.perm.length ≤ n := by
      rw [← C05_length_minimal _ h.constructed h.finite]
      intro i hi
      rw [← nabs_val, hall i hi, nabs_nat]
    have h2 : s.binv.requiredLength ≤ n := by
      rw [requiredLength_le]
      intro j hj
      by_contra hc
      obtain ⟨i, i1, i2⟩ := (exposet_iff h j).1 hj
      have := hall j (by omega)
      have hij : i = j := h.signed.injective i j (by rw [i1, this, nabs_nat])
      subst hij
      rw [this] at i2
      omega
    omega

theorem WF.length_eq {s t : SigPerm} (hs : WF s) (ht : WF t) (h : s.val = t.val) : s.length = t.length := by
  apply Nat.le_antisymm
  · rw [hs.length_le, h, ← ht.length_le]
  · rw [ht.length_le, ← h, ← hs.length_le]

theorem eq_iff {s t : SigPerm} (hs : WF s) (ht : WF t) (cs : Canon s) (ct : Canon t) : s.eq t = true ↔ s.val = t.val := by
  unfold SigPerm.eq
  by_cases hn : (s.neutral && t.neutral) = true
  · rw [if_pos hn]
    rw [Bool.and_eq_true, hs.neutral_iff, ht.neutral_iff] at hn
    simp only [true_iff]
    funext i
    rw [hn.1, hn.2]
  · rw [if_neg hn, Bool.and_eq_true, C05_eq_extensional _ _ hs.constructed ht.constructed]
    constructor
    · rintro ⟨h1, h2⟩
      have h2' : s.binv = t.binv := by
        unfold Binv.eq at h2
        cases hb : s.binv; cases hc : t.binv
        rw [hb, hc] at h2
        simp only [beq_iff_eq] at h2
        rw [h2]
      funext i
      unfold SigPerm.val
      rw [h1, h2']
    · intro h
      refine ⟨fun i => by rw [← nabs_val, ← nabs_val, h], ?_⟩
      have hb : s.binv = t.binv := by
        apply ext_exposet
        · rw [show s.binv.length = s.length from cs, show t.binv.length = t.length from ct, hs.length_eq ht h]
        · intro i
          rw [exposet_iff hs, exposet_iff ht, h]
      rw [hb]
      unfold Binv.eq
      simp

end Verif.SG
