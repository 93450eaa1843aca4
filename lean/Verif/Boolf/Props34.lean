import Verif.Boolf.Props33

/-!
# Property C92: labeled Walsh spectra of fissions, the spectrum of the function
-/

namespace Verif.BF
open Verif.Py Verif.BV Verif.P Verif.W Verif.SP Verif.SPC
open Verif.A hiding Mat

/-! ### labels -/

theorem entryCountsLoop_eq (l : List Nat) (d : Dict Nat Nat) (r p : List Nat) (hd : ∀ x, (d.get? x).getD 0 = p.count x) :
    entryCountsLoop l d r = r ++ (List.range l.length).map fun i => (p ++ l.take i).count (l.getD i 0) := by
  induction l generalizing d r p with
  | nil => simp [entryCountsLoop]
  | cons x l ih =>
    unfold entryCountsLoop
    simp only
    rw [ih (p := p ++ [x])]
    · rw [List.length_cons, List.range_succ_eq_map, List.map_cons, List.map_map, hd x]
      simp only [List.append_assoc, List.cons_append, List.nil_append, List.take_zero, List.append_nil, List.getD_cons_zero]
      rfl
    · intro y
      rw [Dict.get?_set, List.count_append, List.count_singleton, hd x]
      by_cases h : x = y
      · subst h; simp
      · rw [if_neg h, hd y]; simp [h]

/-- the number of smaller keys in the same box is the position -/
theorem count_before {n : Nat} {l : List Nat} (hn : l.Nodup) (hl : ∀ x ∈ l, x < n) {k : Nat} (hk : k < 2 ^ n) :
    ((List.range k).map (gather l)).count (gather l k) = gather (others n l) k := by
  have h1 : ((List.range k).map (gather l)).count (gather l k) = (List.range (2 ^ n)).countP fun j => decide (j < k) && (gather l j == gather l k) := by
    rw [List.count, List.countP_map]
    have : List.range k = (List.range (2 ^ n)).filter fun j => decide (j < k) := by
      apply asc_ext List.pairwise_lt_range (List.pairwise_lt_range.filter _)
      intro x
      simp only [List.mem_range, List.mem_filter, decide_eq_true_eq]
      omega
    rw [this, List.countP_filter]
    apply List.countP_congr
    intro j _
    simp [and_comm]
  rw [h1, ← count_box hn hl (gather_lt l k) fun j => decide (j < k)]
  have h2 : ∀ i < 2 ^ (others n l).length, scatter n l (gather l k) i < k ↔ i < gather (others n l) k := by
    intro i hi
    have hs := scatter_gather (l := l) hk
    constructor
    · intro hc
      by_contra hge
      rcases Nat.lt_or_eq_of_le (Nat.le_of_not_lt hge) with h | h
      · have := scatter_mono (gather l k) hi h
        omega
      · rw [h] at hs
        omega
    · intro hc
      have := scatter_mono (l := l) (n := n) (gather l k) (gather_lt (others n l) k) hc
      omega
  have h3 : (List.range (2 ^ (others n l).length)).countP (fun i => decide (scatter n l (gather l k) i < k)) =
      (List.range (2 ^ (others n l).length)).countP fun i => decide (i < gather (others n l) k) := by
    apply List.countP_congr
    intro i hi
    rw [decide_eq_true_eq, decide_eq_true_eq]
    exact h2 i (List.mem_range.1 hi)
  rw [h3, List.countP_eq_length_filter]
  have := gather_lt (others n l) k
  have h4 : (List.range (2 ^ (others n l).length)).filter (fun i => decide (i < gather (others n l) k)) = List.range (gather (others n l) k) := by
    apply asc_ext (List.pairwise_lt_range.filter _) List.pairwise_lt_range
    intro x
    simp only [List.mem_range, List.mem_filter, decide_eq_true_eq]
    omega
  rw [h4, List.length_range]

theorem entryCounts_eq {n : Nat} {l : List Nat} (hn : l.Nodup) (hl : ∀ x ∈ l, x < n) :
    sequenceToEntryCounts ((List.range (2 ^ n)).map (gather l)) = (List.range (2 ^ n)).map (gather (others n l)) := by
  unfold sequenceToEntryCounts
  rw [entryCountsLoop_eq _ [] [] [] (by intro x; rfl)]
  simp only [List.nil_append, List.length_map, List.length_range]
  apply List.map_congr_left
  intro k hk
  have hk := List.mem_range.1 hk
  rw [← count_before hn hl hk, ← List.map_take, List.take_range, Nat.min_eq_left (by omega), List.getD_eq_getElem?_getD, List.getElem?_map,
    List.getElem?_range hk]
  rfl

/-- entry `t` of row `o` -/
def cell {α : Type} (L : List (List α)) (o t : Nat) : Option α := L[o]?.bind (·[t]?)

theorem labelLoop_spec (M R : Nat) (l : List (Nat × Nat × Nat)) (labels : List (List (Option Nat))) (h1 : labels.length = M) (h2 : ∀ row ∈ labels, row.length = R)
    (hb : ∀ p ∈ l, p.2.1 < M ∧ p.2.2 < R) (hnd : (l.map Prod.snd).Nodup) :
    ∃ L, labelLoop l labels = .ok L ∧ L.length = M ∧ (∀ row ∈ L, row.length = R) ∧ (∀ p ∈ l, cell L p.2.1 p.2.2 = some (some p.1)) ∧
      ∀ o t, (o, t) ∉ l.map Prod.snd → cell L o t = cell labels o t := by
  induction l generalizing labels with
  | nil => exact ⟨labels, rfl, h1, h2, by simp, by simp⟩
  | cons p l ih =>
    obtain ⟨i, o, t⟩ := p
    obtain ⟨ho, ht⟩ := hb (i, o, t) (by simp)
    simp only at ho ht
    have hrow : labels[o]? = some (labels[o]'(by omega)) := List.getElem?_eq_getElem (by omega)
    have hR := h2 _ (List.mem_of_getElem? hrow)
    rw [List.map_cons, List.nodup_cons] at hnd
    obtain ⟨L, L1, L2, L3, L4, L5⟩ := ih (labels.set o ((labels[o]'(by omega)).set t (some i))) (by simpa using h1) (by
      intro row hr
      rcases List.mem_or_eq_of_mem_set hr with hr | rfl
      · exact h2 row hr
      · simpa using hR) (fun p hp => hb p (by simp [hp])) hnd.2
    refine ⟨L, ?_, L2, L3, ?_, ?_⟩
    · unfold labelLoop
      rw [hrow]
      simp only
      rw [if_pos (by omega)]
      exact L1
    · intro p hp
      rcases List.mem_cons.1 hp with rfl | hp
      · simp only
        rw [L5 o t hnd.1]
        unfold cell
        rw [List.getElem?_set, if_pos rfl, if_pos (by omega), Option.bind_some, List.getElem?_set, if_pos rfl, if_pos (by omega)]
      · exact L4 p hp
    · intro o' t' hc
      rw [List.map_cons, List.mem_cons, not_or] at hc
      rw [L5 o' t' hc.2]
      unfold cell
      rw [List.getElem?_set]
      by_cases hoo : o = o'
      · subst hoo
        rw [if_pos rfl, if_pos (by omega), hrow, Option.bind_some, Option.bind_some, List.getElem?_set]
        rw [if_neg]
        rintro rfl
        exact hc.1 rfl
      · rw [if_neg hoo]

theorem labels_eq {n : Nat} {l : List Nat} (hn : l.Nodup) (hl : ∀ x ∈ l, x < n) :
    labelLoop ((List.range (2 ^ n)).map fun k => (k, gather l k, gather (others n l) k))
      (List.replicate (2 ^ l.length) (List.replicate (2 ^ (others n l).length) none)) = .ok (boxes n l some) := by
  obtain ⟨L, h1, h2, h3, h4, _⟩ := labelLoop_spec (2 ^ l.length) (2 ^ (others n l).length)
    ((List.range (2 ^ n)).map fun k => (k, gather l k, gather (others n l) k))
    (List.replicate (2 ^ l.length) (List.replicate (2 ^ (others n l).length) none)) (by simp) (by
      intro row hr
      rw [List.eq_of_mem_replicate hr]; simp) (by
      intro p hp
      obtain ⟨k, _, rfl⟩ := List.mem_map.1 hp
      exact ⟨gather_lt _ _, gather_lt _ _⟩) (by
      rw [List.map_map]
      refine List.Nodup.map_on ?_ List.nodup_range
      intro x hx y hy he
      simp only [Function.comp, Prod.mk.injEq] at he
      rw [← scatter_gather (l := l) (List.mem_range.1 hx), ← scatter_gather (l := l) (List.mem_range.1 hy), he.1, he.2])
  rw [h1]
  congr 1
  apply List.ext_getElem?
  intro b
  by_cases hb : b < 2 ^ l.length
  · have hrow : L[b]? = some (L[b]'(by omega)) := List.getElem?_eq_getElem (by omega)
    have hR := h3 _ (List.mem_of_getElem? hrow)
    rw [hrow]
    unfold boxes
    rw [List.getElem?_map, List.getElem?_range hb, Option.map_some, Option.some.injEq]
    apply List.ext_getElem?
    intro t
    rw [List.getElem?_map]
    by_cases ht : t < 2 ^ (others n l).length
    · rw [List.getElem?_range ht, Option.map_some]
      have := h4 (scatter n l b t, b, t) (List.mem_map.2 ⟨scatter n l b t, List.mem_range.2 (scatter_lt _ _ _ _), by
        rw [gather_scatter hn hl hb, gather_others_scatter ht]⟩)
      unfold cell at this
      rw [hrow, Option.bind_some] at this
      exact this
    · rw [List.getElem?_eq_none (by omega), List.getElem?_eq_none (by simpa using ht)]; rfl
  · rw [List.getElem?_eq_none (by omega), List.getElem?_eq_none (by simp [boxes]; omega)]

/-- **C92.** The labeled spectra: a dict with one item per box.  Its key is the list of the keys in the box, in ascending order.  Its value is the spectrum.
Without dimensions the result is not a dict, but the spectrum itself. -/
theorem C92_labeled (f : Boolf) (hf : Obj f) (dims : List Nat) (hn : dims.Nodup) (hd : ∀ x ∈ dims, x < f.adicity) :
    ∃ s, f.hyperfissionWalshSpectra (dims.map Int.ofNat) = .ok s ∧
      (dims ≠ [] → ∃ d, f.hyperfissionWalshSpectraLabeled (dims.map Int.ofNat) = .ok (.dict d) ∧ d.length = 2 ^ dims.length ∧ d.keys.Nodup ∧
        ∀ (b : Nat) (w : List Int), s[b]? = some w → d[b]? = some (((List.range (2 ^ f.adicity)).filter fun k => gather dims k = b).map some, w)) ∧
      (dims = [] → ∃ w, s = [w] ∧ f.hyperfissionWalshSpectraLabeled [] = .ok (.vector w)) := by
  have h := hf.good.toSound
  refine ⟨_, hyperSpectra_eq h hn hd, fun h0 => ?_, ?_⟩
  · have hz : (List.range (2 ^ f.adicity)).zip (((List.range (2 ^ f.adicity)).map (gather dims)).zip ((List.range (2 ^ f.adicity)).map (gather (others f.adicity dims)))) =
        (List.range (2 ^ f.adicity)).map fun k => (k, gather dims k, gather (others f.adicity dims) k) := by
      rw [List.zip_map']
      conv_lhs => rw [← List.map_id (List.range (2 ^ f.adicity)), List.map_id]
      have := List.zip_map' (f := id) (g := fun k => (gather dims k, gather (others f.adicity dims) k)) (l := List.range (2 ^ f.adicity))
      rw [List.map_id] at this
      exact this
    have hfirst : ∃ w, firstOf (spectra f dims) = .ok w ∧ w.length = 2 ^ (others f.adicity dims).length := by
      have hp := Nat.two_pow_pos dims.length
      obtain ⟨m, hm⟩ : ∃ m, 2 ^ dims.length = m + 1 := ⟨2 ^ dims.length - 1, by omega⟩
      unfold spectra boxes
      rw [hm, List.range_succ_eq_map, List.map_cons]
      exact ⟨_, rfl, by simp⟩
    obtain ⟨w0, w1, w2⟩ := hfirst
    have hkeys : (((boxes f.adicity dims some).zip (spectra f dims)).map Prod.fst) = boxes f.adicity dims some := by
      rw [List.map_fst_zip]
      simp [boxes, spectra]
    have hnd : (boxes f.adicity dims (some : Nat → Option Nat)).Nodup := by
      rw [boxes_eq]
      refine List.Nodup.map_on ?_ List.nodup_range
      intro x hx y hy he
      have hp := Nat.two_pow_pos (others f.adicity dims).length
      have := congrArg (fun L => L[0]?) he
      simp only [box, List.getElem?_map, List.getElem?_range hp, Option.map_some, Option.some.injEq] at this
      rw [← gather_scatter hn hd (List.mem_range.1 hx) 0, ← gather_scatter hn hd (List.mem_range.1 hy) 0, this]
    refine ⟨(boxes f.adicity dims some).zip (spectra f dims), ?_, by simp [boxes, spectra], ?_, fun b w hb => ?_⟩
    · unfold Boolf.hyperfissionWalshSpectraLabeled
      rw [hyperSpectra_eq h hn hd]
      simp only [bind, Except.bind, List.length_map]
      rw [if_neg (by simpa using h0)]
      rw [sequence_eq hn hd h0]
      simp only
      rw [entryCounts_eq hn hd, w1]
      simp only
      rw [hz, w2]
      have e : (spectra f dims).length = 2 ^ dims.length := by simp [spectra, boxes]
      rw [e, labels_eq hn hd]
      simp only [pure, Except.pure]
      rw [Dict.ofPairs_of_nodup]
      unfold Dict.keys
      rw [hkeys]
      exact hnd
    · unfold Dict.keys
      rw [hkeys]
      exact hnd
    · have hlt : b < 2 ^ dims.length := by
        have := getElem?_some_lt hb
        simpa [spectra, boxes] using this
      rw [List.getElem?_zip_eq_some]
      refine ⟨?_, hb⟩
      rw [boxes_eq, List.getElem?_map, List.getElem?_range hlt, Option.map_some, Option.some.injEq]
      have hf := filter_gather hn hd hlt
      have e : ((List.range (2 ^ f.adicity)).filter fun k => decide (gather dims k = b)) = (List.range (2 ^ f.adicity)).filter fun k => gather dims k == b := by
        apply List.filter_congr
        intro k _
        rw [Bool.eq_iff_iff, decide_eq_true_eq, beq_iff_eq]
      rw [e, hf, List.map_map]
      rfl
  · rintro rfl
    refine ⟨box f.adicity [] (boxEntry f []) 0, rfl, ?_⟩
    unfold Boolf.hyperfissionWalshSpectraLabeled
    have := hyperSpectra_eq (l := []) h (by simp) (by simp)
    rw [List.map_nil] at this
    rw [this]
    rfl

/-! ### the spectrum of the function -/

/-- a sign -/
def sgn (m : Nat) : Int := (-1) ^ m

theorem count_signed (l : List Nat) (P : Nat → Bool) (g : Nat → Nat) :
    (l.countP (fun i => P i && decide (Even (g i))) : Int) - l.countP (fun i => P i && decide (Odd (g i))) =
      (l.map fun i => if P i then sgn (g i) else 0).sum := by
  induction l with
  | nil => rfl
  | cons x l ih =>
    rw [List.map_cons, List.sum_cons, ← ih, List.countP_cons, List.countP_cons]
    by_cases hP : P x = true
    · rcases Nat.even_or_odd (g x) with he | ho
      · have hno : ¬ Odd (g x) := Nat.not_odd_iff_even.2 he
        simp only [hP, he, hno, decide_true, decide_false, Bool.and_true, Bool.and_false, if_true, sgn, he.neg_one_pow]
        push_cast
        ring
      · have hne : ¬ Even (g x) := Nat.not_even_iff_odd.2 ho
        simp only [hP, ho, hne, decide_true, decide_false, Bool.and_true, Bool.and_false, if_true, sgn, ho.neg_one_pow]
        push_cast
        ring
    · simp [hP]

theorem boxEntry_sum {f : Boolf} (h : Sound f) (l : List Nat) (k : Nat) : boxEntry f l k = ((List.range (2 ^ f.adicity)).map fun i =>
    if f.eval i.testBit && decide (∀ x ∈ l, i.testBit x = k.testBit x) then sgn (common (others f.adicity l) i k) else 0).sum := by
  rw [← count_signed]
  unfold boxEntry
  congr 2 <;>
  · apply List.countP_congr
    intro i _
    rw [getItem_eq h]
    simp only [Bool.and_eq_true, decide_eq_true_eq, Except.ok.injEq, and_assoc]

theorem sum_map_sub (l : List Nat) (a b : Nat → Int) : (l.map fun i => a i - b i).sum = (l.map a).sum - (l.map b).sum := by
  induction l with
  | nil => rfl
  | cons x l ih =>
    rw [List.map_cons, List.map_cons, List.map_cons, List.sum_cons, List.sum_cons, List.sum_cons, ih]
    ring

theorem common_single {n d : Nat} (hd : d < n) (i k : Nat) :
    common (List.range n) i k = common (others n [d]) i k + (if i.testBit d && k.testBit d then 1 else 0) := by
  have hp : (d :: others n [d]).Perm (List.range n) := by
    refine (List.perm_ext_iff_of_nodup ?_ List.nodup_range).2 fun x => ?_
    · exact List.nodup_cons.2 ⟨fun h => (mem_others.1 h).2 (by simp), others_nodup _ _⟩
    · rw [List.mem_cons, mem_others, List.mem_range, List.mem_singleton]
      by_cases hx : x = d
      · subst hx; simp [hd]
      · simp [hx]
  unfold common
  rw [← hp.countP_eq, List.countP_cons]

/-- **C92.** The Walsh spectrum of the function from that of a fission: for a key without digit `d`, the entry for that key is the sum of the two entries of
the fission, and the entry for the key with that digit their difference. -/
theorem C92_reunion (f : Boolf) (hf : Obj f) (d : Nat) (hd : d < f.adicity) (w z : List Int) (hw : f.walshSpectrum = .ok w)
    (hz : f.hyperfissionWalshSpectraZipped [(d : Int)] = .ok z) (k : Nat) (hk : k + 2 ^ d < 2 ^ f.adicity) (hkd : k.testBit d = false) :
    ∃ x y, z[k]? = some x ∧ z[k + 2 ^ d]? = some y ∧ w[k]? = some (x + y) ∧ w[k + 2 ^ d]? = some (x - y) := by
  have h := hf.good.toSound
  have gz := (C92_spectra f hf [d] (by simp) (by simpa using hd)).choose_spec.choose_spec.2.2.2.2.2.2.2
  have hz' : z = (List.range (2 ^ f.adicity)).map (boxEntry f [d]) := by
    have : f.hyperfissionWalshSpectraZipped [(d : Int)] = .ok ((List.range (2 ^ f.adicity)).map (boxEntry f [d])) := gz
    rw [hz] at this
    exact Except.ok.inj this
  have gw := (C92_spectra f hf [] (by simp) (by simp)).choose_spec.choose_spec.2.2.2.2.2.2.2
  have hw' : w = (List.range (2 ^ f.adicity)).map (boxEntry f []) := by
    have e : f.hyperfissionWalshSpectraZipped [] = f.walshSpectrum := by
      unfold Boolf.hyperfissionWalshSpectraZipped Boolf.hyperfissionWalshSpectra Boolf.hyperfission Boolf.walshSpectrum
      rw [tt_eq h]
      rfl
    have : f.hyperfissionWalshSpectraZipped [] = .ok ((List.range (2 ^ f.adicity)).map (boxEntry f [])) := gw
    rw [e, hw] at this
    exact Except.ok.inj this
  subst hz' hw'
  have hk0 : k < 2 ^ f.adicity := by have := Nat.two_pow_pos d; omega
  have ho : others f.adicity [] = List.range f.adicity := by simp [others]
  have hadd : ∀ x, (k + 2 ^ d).testBit x = (k.testBit x ^^ decide (d = x)) := by
    intro x
    rw [add_two_pow d k hkd, Nat.testBit_xor, Nat.testBit_two_pow]
  have hcom : ∀ i, common (others f.adicity [d]) i (k + 2 ^ d) = common (others f.adicity [d]) i k := by
    intro i
    unfold common
    apply List.countP_congr
    intro x hx
    have : d ≠ x := by
      rintro rfl
      exact (mem_others.1 hx).2 (by simp)
    rw [hadd]
    simp [this]
  refine ⟨boxEntry f [d] k, boxEntry f [d] (k + 2 ^ d), by simp [hk0], by simp [hk], ?_, ?_⟩
  · rw [List.getElem?_map, List.getElem?_range hk0, Option.map_some, Option.some.injEq, boxEntry_sum h, boxEntry_sum h, boxEntry_sum h, ← List.sum_map_add]
    congr 1
    apply List.map_congr_left
    intro i _
    rw [ho, common_single hd, hcom, hkd]
    have h2 : (k + 2 ^ d).testBit d = true := by rw [hadd, hkd]; simp
    cases f.eval i.testBit <;> cases hi : i.testBit d <;> simp [hkd, h2, hi]
  · rw [List.getElem?_map, List.getElem?_range hk, Option.map_some, Option.some.injEq, boxEntry_sum h, boxEntry_sum h, boxEntry_sum h, ← sum_map_sub]
    congr 1
    apply List.map_congr_left
    intro i _
    have h2 : (k + 2 ^ d).testBit d = true := by rw [hadd, hkd]; simp
    rw [ho, common_single hd, hcom, h2]
    cases f.eval i.testBit <;> cases hi : i.testBit d <;> simp [hkd, h2, hi, sgn, pow_succ]

/-- the function `kovane` of boolf/methods/_hyperfission/_test.py -/
example : ∃ f : Boolf, newTT (.str ['0', '0', '0', '1', '0', '1', '1', '1', '1', '1', '1', '0', '1', '0', '0', '0']) = .ok f ∧ Reach f ∧ f.adicity = 4 ∧
    f.hyperfission [1, 2] = .ok [⟨[false, false, true, true]⟩, ⟨[false, true, true, false]⟩, ⟨[false, true, true, false]⟩, ⟨[true, true, false, false]⟩] ∧
    f.hyperfissionWalshSpectra [1, 2] = .ok [[2, 0, -2, 0], [2, 0, 0, -2], [2, 0, 0, -2], [2, 0, 2, 0]] ∧
    f.hyperfissionWalshSpectraLayeredAbs [1, 2] = .ok [[[2], [0, 2], [0]], [[2], [0, 0], [2]], [[2], [0, 0], [2]], [[2], [0, 2], [0]]] ∧
    f.hyperfissionWalshSpectraZipped [1, 2] = .ok [2, 0, 2, 0, 2, 0, 2, 0, -2, 0, 0, -2, 0, -2, 2, 0] ∧
    (do
      match ← f.hyperfissionWalshSpectraLabeled [1, 2] with
      | .vector _ => .error .assertion
      | .dict d => return d.keys) = Except.ok [[some 0, some 1, some 8, some 9], [some 2, some 3, some 10, some 11],
        [some 4, some 5, some 12, some 13], [some 6, some 7, some 14, some 15]] ∧
    f.fissionsWeight = .ok [(4, 4), (4, 4), (4, 4), (4, 4)] ∧
    f.hyperfission [4] = .error .indexError ∧ f.hyperfission [-1] = f.hyperfission [3] ∧ f.hyperfission [0, 4] = .error .assertion ∧
    f.hyperfission [0, 0] = .error .assertion ∧ f.hyperfission [-2, -3] = .error .typeError := by
  obtain ⟨_, e1, e2⟩ := newTT_explicit ['0', '0', '0', '1', '0', '1', '1', '1', '1', '1', '1', '0', '1', '0', '0', '0']
    [false, false, false, true, false, true, true, true, true, true, true, false, true, false, false, false] [0, 1, 2, 3] 4
    (by decide) (by decide) (by decide) (by intro n; simp; omega) (by decide) (by decide)
  exact ⟨_, e1 (by decide), e2.reach, rfl, by decide +kernel, by decide +kernel, by decide +kernel, by decide +kernel, by decide +kernel, by decide +kernel,
    by decide +kernel, by decide +kernel, by decide +kernel, by decide +kernel, by decide +kernel⟩
example : gather [1, 2] 11 = 1 ∧ others 4 [1, 2] = [0, 3] ∧ gather (others 4 [1, 2]) 11 = 3 := by decide

end Verif.BF
