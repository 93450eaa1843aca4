import Verif.Boolf.Model9
import Verif.Boolf.Props14
import Verif.Boolf.Props29

/-!
# Property C91: fissions and hyperfissions of Boolean functions
-/

namespace Verif.BF
open Verif.Py Verif.BV Verif.P Verif.W Verif.SP Verif.SPC
open Verif.A hiding Mat

/-- the number formed by the digits of `k` at the places `l` -/
def gather (l : List Nat) (k : Nat) : Nat := valB (l.map k.testBit)

/-- the places below `n` that are not in `l`, ascending -/
def others (n : Nat) (l : List Nat) : List Nat := (List.range n).filter fun x => x ∉ l

theorem gather_lt (l : List Nat) (k : Nat) : gather l k < 2 ^ l.length := valB_map_lt _ _

theorem mem_others {n : Nat} {l : List Nat} {x : Nat} : x ∈ others n l ↔ x < n ∧ x ∉ l := by simp [others]

theorem others_asc (n : Nat) (l : List Nat) : (others n l).Pairwise (· < ·) := List.pairwise_lt_range.filter _

theorem others_nodup (n : Nat) (l : List Nat) : (others n l).Nodup := (others_asc n l).imp (fun h => Nat.ne_of_lt h)

theorem others_length {n : Nat} {l : List Nat} (hn : l.Nodup) (hl : ∀ x ∈ l, x < n) : l.length + (others n l).length = n := by
  have hp : (l ++ others n l).Perm (List.range n) := by
    refine (List.perm_ext_iff_of_nodup ?_ List.nodup_range).2 fun x => ?_
    · refine List.nodup_append'.2 ⟨hn, others_nodup n l, fun x h1 h2 => (mem_others.1 h2).2 h1⟩
    · rw [List.mem_append, mem_others, List.mem_range]
      constructor
      · rintro (h | h)
        · exact hl x h
        · exact h.1
      · intro h
        by_cases hx : x ∈ l
        · exact .inl hx
        · exact .inr ⟨h, hx⟩
  have := hp.length_eq
  simpa using this

/-- the key with digits `b` at the places `l` and `i` at the others -/
def scatter (n : Nat) (l : List Nat) (b i : Nat) : Nat :=
  valB ((List.range n).map fun x => if x ∈ l then b.testBit (l.idxOf x) else i.testBit ((others n l).idxOf x))

theorem scatter_lt (n : Nat) (l : List Nat) (b i : Nat) : scatter n l b i < 2 ^ n := by
  have := valB_map_lt (List.range n) fun x => if x ∈ l then b.testBit (l.idxOf x) else i.testBit ((others n l).idxOf x)
  unfold scatter
  simpa using this

theorem testBit_scatter (n : Nat) (l : List Nat) (b i x : Nat) : (scatter n l b i).testBit x =
    (decide (x < n) && if x ∈ l then b.testBit (l.idxOf x) else i.testBit ((others n l).idxOf x)) := by
  unfold scatter
  rw [testBit_valB_map]
  by_cases h : x < n
  · rw [List.getElem?_range h]; simp [h]
  · rw [List.getElem?_eq_none (by simpa using h)]; simp [h]

theorem testBit_gather (l : List Nat) (k t : Nat) : (gather l k).testBit t = (l[t]?.map k.testBit).getD false := testBit_valB_map _ _ _

theorem gather_eq_of {l : List Nat} {k b : Nat} (hb : b < 2 ^ l.length) (h : ∀ (t x : Nat), l[t]? = some x → k.testBit x = b.testBit t) : gather l k = b := by
  apply Nat.eq_of_testBit_eq
  intro t
  rw [testBit_gather]
  by_cases ht : t < l.length
  · rw [List.getElem?_eq_getElem ht]
    exact h t _ (List.getElem?_eq_getElem ht)
  · rw [List.getElem?_eq_none (by omega)]
    have : b < 2 ^ t := lt_of_lt_of_le hb (Nat.pow_le_pow_right (by omega) (by omega))
    rw [Nat.testBit_lt_two_pow this]; rfl

theorem idxOf_of_getElem? {l : List Nat} (hn : l.Nodup) {t x : Nat} (h : l[t]? = some x) : l.idxOf x = t := by
  have ht := getElem?_some_lt h
  rw [List.getElem?_eq_getElem ht, Option.some.injEq] at h
  rw [← h]
  exact hn.idxOf_getElem t ht

theorem gather_scatter {n : Nat} {l : List Nat} (hn : l.Nodup) (hl : ∀ x ∈ l, x < n) {b : Nat} (hb : b < 2 ^ l.length) (i : Nat) :
    gather l (scatter n l b i) = b := by
  apply gather_eq_of hb
  intro t x hx
  have hm := List.mem_of_getElem? hx
  rw [testBit_scatter, if_pos hm, idxOf_of_getElem? hn hx]
  simp [hl x hm]

theorem gather_others_scatter {n : Nat} {l : List Nat} {i : Nat} (hi : i < 2 ^ (others n l).length) (b : Nat) :
    gather (others n l) (scatter n l b i) = i := by
  apply gather_eq_of hi
  intro t x hx
  have hm := mem_others.1 (List.mem_of_getElem? hx)
  rw [testBit_scatter, if_neg hm.2, idxOf_of_getElem? (others_nodup n l) hx]
  simp [hm.1]

theorem scatter_gather {n : Nat} {l : List Nat} {k : Nat} (hk : k < 2 ^ n) :
    scatter n l (gather l k) (gather (others n l) k) = k := by
  apply Nat.eq_of_testBit_eq
  intro x
  rw [testBit_scatter]
  by_cases hx : x < n
  · by_cases hm : x ∈ l
    · rw [if_pos hm, testBit_gather, List.getElem?_eq_getElem (List.idxOf_lt_length_iff.2 hm)]
      simp [hx]
    · have hm2 : x ∈ others n l := mem_others.2 ⟨hx, hm⟩
      rw [if_neg hm, testBit_gather, List.getElem?_eq_getElem (List.idxOf_lt_length_iff.2 hm2)]
      simp [hx]
  · rw [Nat.testBit_lt_two_pow (lt_of_lt_of_le hk (Nat.pow_le_pow_right (by omega) (by omega)))]
    simp [hx]

/-- the highest digit where two numbers differ -/
theorem exists_high {i j : Nat} (h : i < j) : ∃ t, i.testBit t = false ∧ j.testBit t = true ∧ ∀ s > t, i.testBit s = j.testBit s := by
  obtain ⟨t, h1, h2⟩ := Nat.exists_most_significant_bit (n := i ^^^ j) (by
    intro hc
    have := Nat.xor_eq_zero_iff.1 hc
    omega)
  have h3 : ∀ s > t, i.testBit s = j.testBit s := by
    intro s hs
    have := h2 s hs
    rw [Nat.testBit_xor] at this
    cases hi : i.testBit s <;> cases hj : j.testBit s <;> simp_all
  rw [Nat.testBit_xor] at h1
  cases hi : i.testBit t <;> cases hj : j.testBit t <;> simp only [hi, hj, Bool.xor_self, Bool.false_eq_true] at h1
  · exact ⟨t, hi, hj, h3⟩
  · exact absurd (Nat.lt_of_testBit t hj hi fun s hs => (h3 s hs).symm) (by omega)

theorem scatter_mono {n : Nat} {l : List Nat} (b : Nat) {i j : Nat} (hj : j < 2 ^ (others n l).length) (h : i < j) :
    scatter n l b i < scatter n l b j := by
  obtain ⟨t, h1, h2, h3⟩ := exists_high h
  have ht : t < (others n l).length := by
    by_contra hc
    rw [Nat.testBit_lt_two_pow (lt_of_lt_of_le hj (Nat.pow_le_pow_right (by omega) (by omega)))] at h2
    cases h2
  have hx := List.getElem?_eq_getElem ht
  have hm := mem_others.1 (List.mem_of_getElem? hx)
  have e := idxOf_of_getElem? (others_nodup n l) hx
  apply Nat.lt_of_testBit (others n l)[t]
  · rw [testBit_scatter, if_neg hm.2, e, h1]; simp
  · rw [testBit_scatter, if_neg hm.2, e, h2]; simp [hm.1]
  · intro y hy
    rw [testBit_scatter, testBit_scatter]
    by_cases hyn : y < n
    · by_cases hyl : y ∈ l
      · rw [if_pos hyl, if_pos hyl]
      · rw [if_neg hyl, if_neg hyl, h3]
        have hym : y ∈ others n l := mem_others.2 ⟨hyn, hyl⟩
        have hyi := List.idxOf_lt_length_iff.2 hym
        by_contra hc
        rcases Nat.lt_or_eq_of_le (Nat.le_of_not_lt hc) with hc | hc
        · have := List.pairwise_iff_getElem.1 (others_asc n l) _ _ hyi ht hc
          rw [List.getElem_idxOf] at this
          omega
        · have : (others n l)[(others n l).idxOf y] = (others n l)[t] := by simp only [hc]
          rw [List.getElem_idxOf] at this
          omega
    · simp [hyn]

/-- the keys with given digits at the places `l` -/
theorem filter_gather {n : Nat} {l : List Nat} (hn : l.Nodup) (hl : ∀ x ∈ l, x < n) {b : Nat} (hb : b < 2 ^ l.length) :
    (List.range (2 ^ n)).filter (fun k => gather l k == b) = (List.range (2 ^ (others n l).length)).map (scatter n l b) := by
  apply asc_ext
  · exact List.pairwise_lt_range.filter _
  · rw [List.pairwise_map]
    rw [List.pairwise_iff_getElem]
    intro i j hi hj hij
    simp only [List.getElem_range]
    exact scatter_mono b (by simpa using hj) hij
  · intro k
    rw [List.mem_filter, List.mem_map, List.mem_range, beq_iff_eq]
    constructor
    · rintro ⟨h1, h2⟩
      exact ⟨gather (others n l) k, List.mem_range.2 (gather_lt _ _), by rw [← h2]; exact scatter_gather h1⟩
    · rintro ⟨i, hi, rfl⟩
      exact ⟨scatter_lt _ _ _ _, gather_scatter hn hl hb i⟩

/-- the boxes of a vector -/
def boxes {α : Type} (n : Nat) (l : List Nat) (v : Nat → α) : List (List α) :=
  (List.range (2 ^ l.length)).map fun b => (List.range (2 ^ (others n l).length)).map fun i => v (scatter n l b i)

theorem zipApart_boxes {α : Type} {n : Nat} {l : List Nat} (hn : l.Nodup) (hl : ∀ x ∈ l, x < n) (v : Nat → α) :
    vectorZipApart ((List.range (2 ^ n)).map v) (((List.range (2 ^ n)).map (gather l)).map Int.ofNat) = .ok (boxes n l v) ∧
    vectorZipTogether (boxes n l v) ((List.range (2 ^ n)).map (gather l)) = .ok ((List.range (2 ^ n)).map v) := by
  have hpos := Nat.two_pow_pos n
  have hpos2 := Nat.two_pow_pos l.length
  obtain ⟨parts, h1, h2, h3, h4, h5⟩ := C23_apart_together ((List.range (2 ^ n)).map v) ((List.range (2 ^ n)).map (gather l)) (by simp) (by
    intro hc
    have := congrArg List.length hc
    simp at this)
  have e : parts = boxes n l v := by
    have hlen : parts.length = 2 ^ l.length := by
      have hx : 2 ^ l.length - 1 ∈ (List.range (2 ^ n)).map (gather l) :=
        List.mem_map.2 ⟨scatter n l (2 ^ l.length - 1) 0, List.mem_range.2 (scatter_lt _ _ _ _), gather_scatter hn hl (by omega) 0⟩
      have := h2 _ hx
      obtain ⟨k, _, hk⟩ := List.mem_map.1 h3
      have := gather_lt l k
      omega
    apply List.ext_getElem?
    intro b
    by_cases hb : b < 2 ^ l.length
    · have hb' : parts[b]? = some (parts[b]'(by omega)) := List.getElem?_eq_getElem (by omega)
      have := h4 b _ hb'
      rw [hb', this]
      unfold boxes
      rw [List.getElem?_map, List.getElem?_range hb, Option.map_some, Option.some.injEq]
      have hp := part_map (List.range (2 ^ n)) v (gather l) b
      rw [filter_gather hn hl hb, List.map_map] at hp
      rw [show (fun i => v (scatter n l b i)) = v ∘ scatter n l b from rfl, ← hp]
      unfold part
      rw [← List.filterMap_eq_map, List.filterMap_filter]
      apply List.filterMap_congr
      intro ap _
      by_cases h : ap.2 = b <;> simp [h]
    · rw [List.getElem?_eq_none (by omega), List.getElem?_eq_none (by simp [boxes]; omega)]
  subst e
  exact ⟨h1, h5⟩

/-- boxes with given entries, zipped together -/
theorem zipTogether_boxes {α : Type} {n : Nat} {l : List Nat} (hn : l.Nodup) (hl : ∀ x ∈ l, x < n) (g : Nat → Nat → α) :
    vectorZipTogether ((List.range (2 ^ l.length)).map fun b => (List.range (2 ^ (others n l).length)).map fun i => g b i)
      ((List.range (2 ^ n)).map (gather l)) = .ok ((List.range (2 ^ n)).map fun k => g (gather l k) (gather (others n l) k)) := by
  have h := (zipApart_boxes hn hl fun k => g (gather l k) (gather (others n l) k)).2
  rw [← h]
  congr 1
  unfold boxes
  refine List.map_congr_left fun b hb => List.map_congr_left fun i hi => ?_
  simp only
  rw [gather_scatter hn hl (List.mem_range.1 hb), gather_others_scatter (List.mem_range.1 hi)]

/-! ### sequences -/

theorem gather_cons (x : Nat) (l : List Nat) (k : Nat) : gather (x :: l) k = (k.testBit x).toNat + 2 * gather l k := rfl

theorem placesOf_eq (l : List Nat) (s L : Nat) (g : Nat → Nat) :
    placesOf ((l.map Int.ofNat).zipIdx s) ((List.range L).map g) = .ok ((List.range L).map fun j => g j + 2 ^ s * gather l j) := by
  induction l generalizing s g with
  | nil => simp [placesOf, gather, valB]
  | cons x l ih =>
    rw [List.map_cons, List.zipIdx_cons]
    unfold placesOf
    have hx : ¬ (Int.ofNat x < 0) := by simp
    rw [if_neg hx]
    simp only [bind, Except.bind]
    obtain ⟨u, u1, u2, u3, u4⟩ := C67_atom (Int.ofNat x)
    rw [u1]
    simp only
    have hu : ∀ j, u.getItem j = .ok (j.testBit x) := by
      intro j
      rw [u4]
      unfold FalseIn
      simp
    have hz : ((List.range L).map g).zipIdx = (List.range L).map fun j => (g j, j) := by
      apply List.ext_getElem?
      intro i
      rw [List.getElem?_zipIdx, List.getElem?_map, List.getElem?_map]
      by_cases h : i < L
      · rw [List.getElem?_range h]; simp
      · rw [List.getElem?_eq_none (by simpa using h)]; rfl
    rw [hz, mapM_ok (g := fun p : Nat × Nat => p.1 + 2 ^ s * (p.2.testBit x).toNat) (by
      intro p _
      unfold addPlace
      rw [hu]
      cases p.2.testBit x <;> simp [bind, Except.bind, pure, Except.pure])]
    simp only
    rw [List.map_map, show ((fun p : Nat × Nat => p.1 + 2 ^ s * (p.2.testBit x).toNat) ∘ fun j => (g j, j)) =
      fun j => g j + 2 ^ s * (j.testBit x).toNat from rfl, ih]
    congr 1
    apply List.map_congr_left
    intro j _
    rw [gather_cons, Nat.pow_succ]
    ring

theorem flatten_replicate (c a : Nat) (g : Nat → Nat) (hg : ∀ k, g (k % a) = g k) :
    (List.replicate c ((List.range a).map g)).flatten = (List.range (c * a)).map g := by
  induction c with
  | zero => simp
  | succ c ih =>
    rw [List.replicate_succ', List.flatten_append, ih, Nat.succ_mul, List.range_add]
    simp only [List.flatten_singleton, List.map_append, List.map_map]
    congr 1
    apply List.map_congr_left
    intro j _
    show g j = g (c * a + j)
    rw [← hg (c * a + j), Nat.mul_comm, Nat.mul_add_mod, hg]

theorem gather_mod {l : List Nat} {a : Nat} (h : ∀ x ∈ l, x < a) (k : Nat) : gather l (k % 2 ^ a) = gather l k := by
  unfold gather
  rw [valB_map_eq]
  intro x hx
  rw [Nat.testBit_mod_two_pow]
  simp [h x hx]

theorem sequence_eq {n : Nat} {l : List Nat} (hn : l.Nodup) (hl : ∀ x ∈ l, x < n) (h0 : l ≠ []) :
    atomIndicesToSequence (l.map Int.ofNat) (some ((2 ^ n : Nat) : Int)) = .ok ((List.range (2 ^ n)).map (gather l)) := by
  have hinj : Function.Injective Int.ofNat := fun a b h => by simpa using h
  have hne : l.map Int.ofNat ≠ [] := by simpa using h0
  have hmax := maxInt_mem hne
  obtain ⟨m, hm, hm2⟩ := List.mem_map.1 hmax
  have hle : ∀ x ∈ l, x < m + 1 := by
    intro x hx
    have := le_maxInt (List.mem_map_of_mem hx : Int.ofNat x ∈ l.map Int.ofNat)
    rw [← hm2] at this
    simp only [Int.ofNat_eq_natCast] at this
    omega
  have hmn := hl m hm
  unfold atomIndicesToSequence
  rw [if_neg (by rw [List.dedup_eq_self.2 (hn.map hinj)]; simp), if_neg hne, ← hm2, if_neg (by simp only [Int.ofNat_eq_natCast]; omega)]
  have e1 : (Int.ofNat m + 1).toNat = m + 1 := by simp only [Int.ofNat_eq_natCast]; omega
  simp only [e1]
  have e2 : List.replicate (2 ^ (m + 1)) 0 = (List.range (2 ^ (m + 1))).map fun _ => 0 := by simp
  rw [e2, placesOf_eq]
  simp only [bind, Except.bind, pow_zero, one_mul, Nat.zero_add]
  unfold repeatSequence
  have hp := Nat.two_pow_pos (m + 1)
  have hd : 2 ^ (m + 1) ∣ 2 ^ n := Nat.pow_dvd_pow 2 hmn
  rw [if_neg (by simp), if_neg (by simp), if_neg (by rw [Int.toNat_natCast]; simpa using Nat.mod_eq_zero_of_dvd hd)]
  congr 1
  rw [flatten_replicate _ _ _ (gather_mod hle)]
  simp only [Int.toNat_natCast, List.length_map, List.length_range]
  rw [Nat.div_mul_cancel hd]

/-! ### hyperfissions -/

/-- one box of a vector -/
def box {α : Type} (n : Nat) (l : List Nat) (v : Nat → α) (b : Nat) : List α := (List.range (2 ^ (others n l).length)).map fun i => v (scatter n l b i)

theorem boxes_eq {α : Type} (n : Nat) (l : List Nat) (v : Nat → α) : boxes n l v = (List.range (2 ^ l.length)).map (box n l v) := rfl

theorem tt_eq {f : Boolf} (h : Sound f) : f.tt = .ok ⟨(List.range (2 ^ f.adicity)).map fun k => f.eval k.testBit⟩ := by
  rw [tt_noArg_eq, tt_arity_eq h le_rfl]

theorem ofBools_mapM (L : List (List Bool)) : L.mapM ofBools = .ok (L.map Binv.mk) := mapM_ok (g := Binv.mk) fun v _ => ofBools_eq v

theorem zipApartBinv_eq {n : Nat} {l : List Nat} (hn : l.Nodup) (hl : ∀ x ∈ l, x < n) (v : Nat → Bool) :
    zipApartBinv ⟨(List.range (2 ^ n)).map v⟩ (((List.range (2 ^ n)).map (gather l)).map Int.ofNat) = .ok ((boxes n l v).map Binv.mk) := by
  unfold zipApartBinv
  simp only
  rw [(zipApart_boxes hn hl v).1]
  exact ofBools_mapM _

theorem gather_singleton (d k : Nat) : gather [d] k = (k.testBit d).toNat := by simp [gather, valB]

theorem boxes_singleton {α : Type} (n d : Nat) (v : Nat → α) : boxes n [d] v = [box n [d] v 0, box n [d] v 1] := rfl

theorem fissions_eq {f : Boolf} (h : Sound f) (h0 : 0 < f.adicity) : f.fissions = .ok ((List.range f.adicity).map fun d =>
    (⟨box f.adicity [d] (fun k => f.eval k.testBit) 0⟩, ⟨box f.adicity [d] (fun k => f.eval k.testBit) 1⟩)) := by
  unfold Boolf.fissions
  rw [if_pos h0, makeAtompatterns_eq h0, tt_eq h]
  simp only [bind, Except.bind]
  rw [if_pos (by simp [Binv.length])]
  rw [mapM_ok (g := fun p : Binv => match zipApartBinv ⟨(List.range (2 ^ f.adicity)).map fun k => f.eval k.testBit⟩ (p.vector.map fun b => (b.toNat : Int)) with
    | .ok [a, b] => (a, b)
    | _ => (⟨[]⟩, ⟨[]⟩))]
  · rw [List.map_map]
    congr 1
    apply List.map_congr_left
    intro d hd
    have e : (atomB f.adicity d).vector.map (fun b => (b.toNat : Int)) = ((List.range (2 ^ f.adicity)).map (gather [d])).map Int.ofNat := by
      unfold atomB
      simp only [List.map_map]
      apply List.map_congr_left
      intro k _
      simp [gather_singleton]
    simp only [Function.comp]
    rw [e, zipApartBinv_eq (by simp) (by simpa using hd), boxes_singleton]
    rfl
  · intro p hp
    obtain ⟨d, hd, rfl⟩ := List.mem_map.1 hp
    have e : (atomB f.adicity d).vector.map (fun b => (b.toNat : Int)) = ((List.range (2 ^ f.adicity)).map (gather [d])).map Int.ofNat := by
      unfold atomB
      simp only [List.map_map]
      apply List.map_congr_left
      intro k _
      simp [gather_singleton]
    rw [e, zipApartBinv_eq (by simp) (by simpa using hd), boxes_singleton]
    rfl

theorem scatter_nil {n i : Nat} (hi : i < 2 ^ n) : scatter n [] 0 i = i := by
  have h := scatter_gather (l := []) hi
  have e : others n [] = List.range n := by simp [others]
  rw [e] at h
  have e2 : gather (List.range n) i = i := valB_digits hi
  rw [e2] at h
  exact h

theorem hyperfission_eq {f : Boolf} (h : Sound f) {l : List Nat} (hn : l.Nodup) (hl : ∀ x ∈ l, x < f.adicity) :
    f.hyperfission (l.map Int.ofNat) = .ok ((boxes f.adicity l fun k => f.eval k.testBit).map Binv.mk) := by
  unfold Boolf.hyperfission
  match l, hn, hl with
  | [], _, _ =>
    simp only [List.map_nil]
    rw [tt_eq h]
    simp only [bind, Except.bind, pure, Except.pure, boxes_eq, List.length_nil, pow_zero, List.range_one, List.map_cons, List.map_nil]
    have e : others f.adicity [] = List.range f.adicity := by simp [others]
    unfold box
    rw [e, List.length_range]
    congr 3
    apply List.map_congr_left
    intro i hi
    rw [scatter_nil (List.mem_range.1 hi)]
  | [d], _, hl =>
    have hd : d < f.adicity := by simpa using hl
    simp only [List.map_cons, List.map_nil]
    rw [fissions_eq h (by omega)]
    simp only [bind, Except.bind]
    have h1 : ¬ (Int.ofNat d < 0) := by simp
    rw [if_neg h1, if_neg h1]
    have : (Int.ofNat d).toNat = d := rfl
    rw [this, List.getElem?_map, List.getElem?_range hd]
    rfl
  | d :: e :: l, hn, hl =>
    simp only [List.map_cons]
    have := sequence_eq hn hl (by simp)
    simp only [List.map_cons] at this
    rw [this, tt_eq h]
    simp only [bind, Except.bind]
    exact zipApartBinv_eq hn hl _

/-- **C91.** Fission along some dimensions: there is a box for each combination of digits at the dimensions; the digits of a key at the dimensions tell its
box, those at the other places its position. -/
theorem C91_hyperfission (f : Boolf) (hf : Obj f) (dims : List Nat) (hn : dims.Nodup) (hd : ∀ x ∈ dims, x < f.adicity) :
    ∃ boxes, f.hyperfission (dims.map Int.ofNat) = .ok boxes ∧ boxes.length = 2 ^ dims.length ∧
      (∀ b ∈ boxes, b.length = 2 ^ (f.adicity - dims.length)) ∧
      ∀ k < 2 ^ f.adicity, ∃ b v, boxes[gather dims k]? = some b ∧ b.vector[gather (others f.adicity dims) k]? = some v ∧ f.getItem k = .ok v := by
  have h := hf.good.toSound
  have hlen := others_length hn hd
  refine ⟨_, hyperfission_eq h hn hd, by simp [boxes], ?_, fun k hk => ?_⟩
  · intro b hb
    rw [boxes_eq, List.map_map] at hb
    obtain ⟨i, _, rfl⟩ := List.mem_map.1 hb
    simp only [Function.comp, Binv.length, box, List.length_map, List.length_range]
    congr 1
    omega
  · rw [boxes_eq, List.map_map, List.getElem?_map, List.getElem?_range (gather_lt _ _)]
    refine ⟨_, f.eval k.testBit, rfl, ?_, getItem_eq h k⟩
    simp only [Function.comp, box]
    rw [List.getElem?_map, List.getElem?_range (gather_lt _ _), Option.map_some, scatter_gather hk]

theorem others_singleton_get {n d t : Nat} (hd : d < n) (ht : t < n - 1) : (others n [d])[t]? = some (if t < d then t else t + 1) := by
  have e : others n [d] = (List.range (n - 1)).map fun t => if t < d then t else t + 1 := by
    apply asc_ext (others_asc _ _)
    · rw [List.pairwise_map]
      refine List.pairwise_lt_range.imp fun {a b} hab => ?_
      split <;> split <;> omega
    · intro x
      rw [mem_others, List.mem_map]
      constructor
      · rintro ⟨h1, h2⟩
        simp only [List.mem_singleton] at h2
        by_cases hx : x < d
        · exact ⟨x, List.mem_range.2 (by omega), by rw [if_pos hx]⟩
        · exact ⟨x - 1, List.mem_range.2 (by omega), by rw [if_neg (by omega)]; omega⟩
      · rintro ⟨t, h1, rfl⟩
        rw [List.mem_range] at h1
        rw [List.mem_singleton]
        split <;> omega
  rw [e, List.getElem?_map, List.getElem?_range ht]
  rfl

theorem gather_others_singleton {n d k : Nat} (hd : d < n) (hk : k < 2 ^ n) : gather (others n [d]) k = k % 2 ^ d + 2 ^ d * (k / 2 ^ (d + 1)) := by
  have hlen := others_length (n := n) (l := [d]) (by simp) (by simpa using hd)
  simp only [List.length_cons, List.length_nil] at hlen
  apply Nat.eq_of_testBit_eq
  intro t
  rw [testBit_gather, Nat.add_comm, Nat.testBit_two_pow_mul_add _ (Nat.mod_lt _ (Nat.two_pow_pos d)), Nat.testBit_mod_two_pow, Nat.testBit_div_two_pow]
  by_cases ht : t < n - 1
  · rw [others_singleton_get hd ht]
    by_cases htd : t < d
    · simp [htd]
    · simp only [htd, if_false, Option.map_some, Option.getD_some]
      congr 1
      omega
  · rw [List.getElem?_eq_none (by omega)]
    rw [if_neg (by omega), Nat.testBit_lt_two_pow (lt_of_lt_of_le hk (Nat.pow_le_pow_right (by omega) (by omega)))]
    rfl

/-- **C91.** There is one fission for each place below the adicity.  The first vector has the values at the keys with digit 0 at that place, the second those
with digit 1; their position is the key without that digit. -/
theorem C91_fissions (f : Boolf) (hf : Obj f) (h0 : 0 < f.adicity) : ∃ l, f.fissions = .ok l ∧ l.length = f.adicity ∧
    ∀ d < f.adicity, ∃ a b, l[d]? = some (a, b) ∧ f.hyperfission [(d : Int)] = .ok [a, b] ∧
      a.length = 2 ^ (f.adicity - 1) ∧ b.length = 2 ^ (f.adicity - 1) ∧
      ∀ k < 2 ^ f.adicity, ∃ v, (if k.testBit d then b else a).vector[k % 2 ^ d + 2 ^ d * (k / 2 ^ (d + 1))]? = some v ∧ f.getItem k = .ok v := by
  have h := hf.good.toSound
  refine ⟨_, fissions_eq h h0, by simp, fun d hd => ⟨_, _, by rw [List.getElem?_map, List.getElem?_range hd]; rfl, ?_, ?_, ?_, fun k hk => ?_⟩⟩
  · have := hyperfission_eq (l := [d]) h (by simp) (by simpa using hd)
    rw [boxes_singleton] at this
    exact this
  · have := others_length (n := f.adicity) (l := [d]) (by simp) (by simpa using hd)
    simp only [Binv.length, box, List.length_map, List.length_range]
    congr 1
    simp only [List.length_cons, List.length_nil] at this
    omega
  · have := others_length (n := f.adicity) (l := [d]) (by simp) (by simpa using hd)
    simp only [Binv.length, box, List.length_map, List.length_range]
    congr 1
    simp only [List.length_cons, List.length_nil] at this
    omega
  · refine ⟨f.eval k.testBit, ?_, getItem_eq h k⟩
    rw [← gather_others_singleton hd hk]
    have hs := scatter_gather (l := [d]) hk
    rw [gather_singleton] at hs
    cases hb : k.testBit d <;> rw [hb] at hs <;>
      simp only [Bool.false_eq_true, if_false, if_true, box] <;>
      rw [List.getElem?_map, List.getElem?_range (gather_lt _ _), Option.map_some]
    · rw [Bool.toNat_false] at hs; rw [hs]
    · rw [Bool.toNat_true] at hs; rw [hs]

end Verif.BF
