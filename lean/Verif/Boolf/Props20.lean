import Verif.Boolf.Props19

/-!
# C84: bloatless functions
-/

namespace Verif.BF
open Verif.Py Verif.BV Verif.P Verif.W Verif.SP Verif.SPC
open Verif.A hiding Mat

theorem atoms_of_not_const {f : Boolf} (h : Canon f) (hc : f.isConstant = false) : f.atomvals ≠ [] := by
  intro h0
  have := h.const
  rw [hc, h0] at this; simp at this

theorem atoms_of_const {f : Boolf} (h : Canon f) (hc : f.isConstant = true) : f.atomvals = [] := by
  have := h.const
  rw [hc] at this; simpa using this

theorem getRepr_rep {F : List Nat} {n : Nat} {s : SetPartComp} (hF : F ≠ []) (h : SPC.Reach (· ∈ bloatFacts F n) s) {r : Nat} (hr : r ∈ reps F n) :
    s.getRepr r = r := by
  obtain ⟨r1, r2⟩ := mem_reps.1 hr
  obtain ⟨b1, b2, b3, b4⟩ := C61_block _ s h (r : Int)
  have h1 := b4 r ((b1 r).2 (Or.inl rfl))
  rcases (b1 _).1 b3 with h2 | h2
  · exact h2
  · by_cases hc : s.getRepr r < 0 ∨ (n : Int) ≤ s.getRepr r
    · have := (no_info h (fun v hv => bloat_flip hc v hv) (b := (r : Int)) (by omega)).2.1
      rw [h2] at this; cases this
    · push Not at hc
      obtain ⟨b, hb⟩ : ∃ b : Nat, s.getRepr r = b := ⟨(s.getRepr r).toNat, by omega⟩
      rw [hb] at h1 h2 hc ⊢
      by_cases hbr : r = b
      · rw [hbr]
      · have he := ((bloat_sem hF h r1 (by omega : b < n)).1 hbr).1 h2
        have hrel : related F r b = true := related_iff.2 (Or.inl he)
        have hv := (eqOn_iff_head hF hrel).1.1 he
        obtain ⟨_, q⟩ := repK_spec (F := F) r1
        rw [r2] at q
        have hbm : b ∈ cls F n r := mem_cls.2 ⟨by omega, hrel⟩
        rcases q with ⟨q1, q2⟩ | ⟨q1, q2⟩
        · have := q2 b hbm (by rw [← hv, q1]); omega
        · have := q2 b hbm; omega

theorem minOf_cls {F : List Nat} {n r : Nat} (hr : r < n) : minOf ((cls F n r).map Int.ofNat) = (((cls F n r).headD 0 : Nat) : Int) := by
  have : ((cls F n r).map Int.ofNat).Pairwise (· < ·) := by
    rw [List.pairwise_map]; exact (cls_asc F n r).imp fun h => by simpa using h
  unfold minOf
  rw [foldl_min_head this, List.headD_eq_head?_getD, head?_map_cls hr]; rfl

theorem undeflated_eq {f : Boolf} (h : Canon f) (hc : f.isConstant = false) :
    f.bloatlessAtomkeysUndeflated = .ok ((reps f.fullspots f.valency).map Int.ofNat) := by
  have hF := fullspots_ne_nil h (atoms_of_not_const h hc)
  obtain ⟨s, s1, s2⟩ := bloat_reach h
  unfold Boolf.bloatlessAtomkeysUndeflated
  rw [eqBlocks_spec h hc, s1]
  simp only [bind, Except.bind, pure, Except.pure]
  generalize f.fullspots = F at *
  generalize f.valency = n at *
  rw [mapM_ok (g := fun p : List Int × Nat => (((reps F n).getD p.2 0 : Nat) : Int))]
  · congr 1
    apply List.ext_getElem?
    intro i
    rw [List.getElem?_map, List.getElem?_zipIdx, List.getElem?_map, List.getElem?_map, Option.map_map, Option.map_map]
    cases hi : (reps F n)[i]? with
    | none => rfl
    | some r => simp [List.getD_eq_getElem?_getD, hi]
  · rintro ⟨B, i⟩ hp
    rw [List.mem_zipIdx_iff_getElem?] at hp
    simp only at hp ⊢
    rw [List.getElem?_map, Option.map_eq_some_iff] at hp
    obtain ⟨r, hr, rfl⟩ := hp
    have hrm := List.mem_of_getElem? hr
    have r1 := (mem_reps.1 hrm).1
    rw [item_ok (x := prefK F n r) (by rw [List.getElem?_map, hr]; rfl)]
    simp only [List.getD_eq_getElem?_getD, hr, Option.getD_some]
    unfold prefK
    by_cases hm : mixed F n r = true
    · rw [if_pos hm]
      simp only
      rw [(mem_reps.1 hrm).2, getRepr_rep hF s2 hrm]
    · rw [if_neg hm]
      simp only
      rw [minOf_cls r1, ← repK_unmixed r1 (by simpa using hm), (mem_reps.1 hrm).2]

/-! ### bloatless spotint -/

theorem reps_index {F : List Nat} {n i j : Nat} {r : Nat} (hi : (reps F n)[i]? = some r) (hj : (reps F n)[j]? = some r) : i = j := by
  rcases Nat.lt_trichotomy i j with h | h | h
  · have := getElem_lt (reps_asc F n) hi hj h; omega
  · exact h
  · have := getElem_lt (reps_asc F n) hj hi h; omega

theorem majorToMinor_get {F : List Nat} {n m : Nat} (hm : m < n) :
    ∃ i, (majorToMinor ((reps F n).map fun r => (cls F n r).map Int.ofNat)).get? (m : Int) = some i ∧ (reps F n)[i]? = some (repK F n m) := by
  have hmem : ∀ (k : Int) (i : Nat), (k, i) ∈ (((reps F n).map fun r => (cls F n r).map Int.ofNat).zipIdx.flatMap fun p => p.1.map fun element => (element, p.2)) ↔
      ∃ r b : Nat, (reps F n)[i]? = some r ∧ b ∈ cls F n r ∧ k = b := by
    intro k i
    rw [List.mem_flatMap]
    constructor
    · rintro ⟨⟨B, j⟩, h1, h2⟩
      rw [List.mem_zipIdx_iff_getElem?] at h1
      simp only at h1 h2
      rw [List.getElem?_map, Option.map_eq_some_iff] at h1
      obtain ⟨r, hr, rfl⟩ := h1
      rw [List.map_map, List.mem_map] at h2
      obtain ⟨b, hb, he⟩ := h2
      cases he
      exact ⟨r, b, hr, hb, rfl⟩
    · rintro ⟨r, b, hr, hb, rfl⟩
      refine ⟨((cls F n r).map Int.ofNat, i), ?_, ?_⟩
      · rw [List.mem_zipIdx_iff_getElem?]
        simp only
        rw [List.getElem?_map, hr]; rfl
      · rw [List.map_map, List.mem_map]
        exact ⟨b, hb, rfl⟩
  obtain ⟨i, hi⟩ := List.mem_iff_getElem?.1 (repK_mem (F := F) hm)
  refine ⟨i, ?_, hi⟩
  unfold majorToMinor
  rw [Dict.get?_ofPairs]
  have hin : ((m : Int), i) ∈ (((reps F n).map fun r => (cls F n r).map Int.ofNat).zipIdx.flatMap fun p => p.1.map fun element => (element, p.2)).reverse := by
    rw [List.mem_reverse, hmem]
    exact ⟨_, m, hi, mem_cls.2 ⟨hm, related_symm (repK_related hm)⟩, rfl⟩
  obtain ⟨j, hj⟩ := Dict.mem_keys_iff.1 (List.mem_map_of_mem (f := Prod.fst) hin)
  rw [hj]
  have hj' := Dict.get?_mem hj
  rw [List.mem_reverse, hmem] at hj'
  obtain ⟨r, b, hr, hb, hbm⟩ := hj'
  obtain rfl : m = b := by omega
  have hrr := mem_reps.1 (List.mem_of_getElem? hr)
  have : r = repK F n m := by rw [← repK_congr (mem_cls.1 hb).2, hrr.2]
  rw [this] at hr
  rw [reps_index hr hi]

/-- the digits follow the bloat -/
def Follows (F : List Nat) (n s : Nat) : Prop := ∀ a b : Nat, a < n → b < n → (EqOn F a b → s.testBit a = s.testBit b) ∧ (NeOn F a b → s.testBit a ≠ s.testBit b)

theorem unmixed_eqOn {F : List Nat} {n m : Nat} (hF : F ≠ []) (hm : m < n) (hmx : mixed F n m = false) : EqOn F m (repK F n m) := by
  rw [(eqOn_iff_head hF (repK_related hm)).1]
  have hall : ∀ b ∈ cls F n m, (F.headD 0).testBit b = (F.headD 0).testBit ((cls F n m).headD 0) := by
    intro b hb
    by_contra hc
    rw [mixed_iff.2 ⟨b, hb, hc⟩] at hmx; cases hmx
  rw [hall m (self_cls hm), hall _ (repK_spec hm).1]

theorem minorLoop_spec {F : List Nat} {n s : Nat} (hF : F ≠ []) (hs : Follows F n s) (l : List Nat) (hl : ∀ m ∈ l, m < n) (acc : List Nat) :
    ∃ r, minorLoop ⟨(List.range n).map s.testBit⟩ ((reps F n).map (prefK F n)) (majorToMinor ((reps F n).map fun r => (cls F n r).map Int.ofNat))
        (List.range (reps F n).length) l acc = .ok r ∧
      ∀ i, i ∈ r ↔ i ∈ acc ∨ ∃ m ∈ l, (reps F n)[i]? = some (repK F n m) ∧ s.testBit (repK F n m) = true := by
  induction l generalizing acc with
  | nil => exact ⟨acc, rfl, fun i => by simp⟩
  | cons m l ih =>
    have hm := hl m (by simp)
    obtain ⟨i, h1, h2⟩ := majorToMinor_get (F := F) hm
    have ih' := fun acc => ih (fun x hx => hl x (by simp [hx])) acc
    unfold minorLoop
    rw [h1]
    simp only
    rw [if_pos (by rw [List.contains_iff_mem, List.mem_range]; exact getElem?_some_lt h2),
      item_ok (x := prefK F n (repK F n m)) (by rw [List.getElem?_map, h2]; rfl)]
    simp only [bind, Except.bind]
    have hused : (⟨(List.range n).map s.testBit⟩ : Binv).getItem (match prefK F n (repK F n m) with | some pref => pref.toNat | none => m) = .ok (s.testBit (repK F n m)) := by
      have hget : ∀ k < n, (⟨(List.range n).map s.testBit⟩ : Binv).getItem k = .ok (s.testBit k) := by
        intro k hk
        unfold Binv.getItem
        simp only
        rw [List.getElem?_map, List.getElem?_range hk]; rfl
      rw [← prefK_congr (repK_related hm)]
      unfold prefK
      by_cases hmx : mixed F n m = true
      · rw [if_pos hmx]
        simp only
        rw [Int.toNat_natCast]
        exact hget _ (repK_lt hm)
      · rw [if_neg hmx]
        simp only
        rw [hget m hm, (hs m _ hm (repK_lt hm)).1 (unmixed_eqOn hF hm (by simpa using hmx))]
    erw [hused]
    simp only
    cases hb : s.testBit (repK F n m)
    · rw [if_neg (by simp)]
      obtain ⟨r, r1, r2⟩ := ih' acc
      refine ⟨r, r1, fun j => ?_⟩
      rw [r2]
      simp only [List.exists_mem_cons_iff, hb]
      simp
    · rw [if_pos rfl]
      obtain ⟨r, r1, r2⟩ := ih' (acc ++ [i])
      refine ⟨r, r1, fun j => ?_⟩
      rw [r2]
      simp only [List.exists_mem_cons_iff, hb, List.mem_append, List.mem_singleton]
      constructor
      · rintro ((h | rfl) | h)
        · exact Or.inl h
        · exact Or.inr (Or.inl ⟨h2, trivial⟩)
        · exact Or.inr (Or.inr h)
      · rintro (h | ⟨h, _⟩ | h)
        · exact Or.inl (Or.inl h)
        · exact Or.inl (Or.inr (reps_index h h2))
        · exact Or.inr h

theorem distinct_eq {f : Boolf} (h : Canon f) (hc : f.isConstant = false) : f.numberOfDistinctSplits = .ok (reps f.fullspots f.valency).length := by
  unfold Boolf.numberOfDistinctSplits
  rw [eqBlocks_spec h hc]
  simp [bind, Except.bind, pure, Except.pure]

theorem follows_iff {F : List Nat} (hF : F ≠ []) (n s : Nat) : Models (· ∈ bloatFacts F n) (digit s) ↔ Follows F n s := by
  rw [models_bloat hF]
  unfold Follows
  have : ∀ k : Nat, digit s k = s.testBit k := fun k => by unfold digit; simp
  simp only [this]

theorem bloatlessSpotint_spec {f : Boolf} (h : Canon f) (hc : f.isConstant = false) (s : Nat) :
    (2 ^ f.valency ≤ s → f.bloatlessSpotint s = .error .tooBig) ∧
    (s < 2 ^ f.valency → ¬ Follows f.fullspots f.valency s → f.bloatlessSpotint s = .error .bloatMismatch) ∧
    (s < 2 ^ f.valency → Follows f.fullspots f.valency s → f.bloatlessSpotint s = .ok (valB ((reps f.fullspots f.valency).map s.testBit))) := by
  have hat := atoms_of_not_const h hc
  have hF := fullspots_ne_nil h hat
  have hn0 : 0 < f.valency := by rw [h.val]; exact List.length_pos_iff.2 hat
  obtain ⟨t, t1, t2⟩ := bloat_reach h
  obtain ⟨m, m1, m2⟩ := C47_int_matches _ t t2 s
  rw [follows_iff hF] at m2
  unfold Boolf.bloatlessSpotint
  rw [if_neg (by simp [hc])]
  refine ⟨fun hs => by rw [if_neg (by omega)], fun hs hn => ?_, fun hs hfol => ?_⟩
  · rw [if_pos hs, mk_digits hn0 hs, t1]
    simp only [bind, Except.bind]
    rw [m1]
    simp only
    rw [if_neg (fun hm => hn (m2.1 hm))]
  · rw [if_pos hs, mk_digits hn0 hs, t1]
    simp only [bind, Except.bind]
    rw [m1]
    simp only
    rw [if_pos (m2.2 hfol), eqBlocks_spec h hc, distinct_eq h hc]
    simp only [pure, Except.pure]
    obtain ⟨r, r1, r2⟩ := minorLoop_spec hF hfol (List.range f.valency) (fun m hm => List.mem_range.1 hm) []
    have hlen : (⟨(List.range f.valency).map s.testBit⟩ : Binv).length = f.valency := by simp [Binv.length]
    rw [hlen, r1]
    simp only
    obtain ⟨b, b1, _, b3⟩ := (C26_exposet r.dedup 0).2.2
    rw [b1]
    simp only
    congr 1
    rw [intval_eq]
    apply Nat.eq_of_testBit_eq
    intro i
    rw [testBit_valB, List.getD_eq_getElem?_getD, testBit_valB_map, Bool.eq_iff_iff]
    have h1 : (b.vector[i]?).getD false = true ↔ i ∈ r := by
      rw [← List.mem_dedup, ← b3 i, mem_exposet]
      cases b.vector[i]? <;> simp
    rw [h1, r2]
    constructor
    · rintro (h | ⟨m, _, h2, h3⟩)
      · cases h
      · rw [h2]; exact h3
    · intro h2
      cases hi : (reps f.fullspots f.valency)[i]? with
      | none => rw [hi] at h2; simp at h2
      | some k =>
        rw [hi] at h2
        obtain ⟨k1, k2⟩ := mem_reps.1 (List.mem_of_getElem? hi)
        exact Or.inr ⟨k, List.mem_range.2 k1, by rw [k2], by rw [k2]; exact h2⟩

end Verif.BF
