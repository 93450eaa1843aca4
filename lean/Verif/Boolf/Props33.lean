import Verif.Boolf.Props32

/-!
# Property C92: Walsh spectra of fissions
-/

namespace Verif.BF
open Verif.Py Verif.BV Verif.P Verif.W Verif.SP Verif.SPC
open Verif.A hiding Mat

/-- the number of places of `l` where both keys have digit 1 -/
def common (l : List Nat) (i k : Nat) : Nat := l.countP fun x => i.testBit x && k.testBit x

/-- Among the true keys that agree with `k` at the places `l`: those with an even number of digits in common with `k` at the other places, minus those with
an odd number. -/
def boxEntry (f : Boolf) (l : List Nat) (k : Nat) : Int :=
  ((List.range (2 ^ f.adicity)).countP fun i => f.getItem i = .ok true ∧ (∀ x ∈ l, i.testBit x = k.testBit x) ∧ Even (common (others f.adicity l) i k) : Int) -
  (List.range (2 ^ f.adicity)).countP fun i => f.getItem i = .ok true ∧ (∀ x ∈ l, i.testBit x = k.testBit x) ∧ Odd (common (others f.adicity l) i k)

theorem overlap_gather (l : List Nat) (i k : Nat) : overlap (gather l i) (gather l k) = common l i k := by
  rw [overlap_eq (gather_lt l i)]
  have h := countP_card l.length fun t => (gather l i).testBit t && (gather l k).testBit t
  have e : ((Finset.range l.length).filter fun t => (gather l i).testBit t = true ∧ (gather l k).testBit t = true) =
      (Finset.range l.length).filter fun t => ((gather l i).testBit t && (gather l k).testBit t) = true := by
    apply Finset.filter_congr
    intro t _
    rw [Bool.and_eq_true]
  rw [e, ← h]
  unfold common
  conv_rhs => rw [eq_map_getD l 0, List.countP_map]
  apply List.countP_congr
  intro t ht
  rw [testBit_gather, testBit_gather, List.getElem?_eq_getElem (List.mem_range.1 ht)]
  simp [List.getElem?_eq_getElem (List.mem_range.1 ht)]

theorem ints_box (n : Nat) (l : List Nat) (v : Nat → Bool) (b : Nat) : ints ⟨box n l v b⟩ = bits (others n l).length fun i => v (scatter n l b i) := rfl

theorem spectrum_length (n : Nat) (l : List Nat) (v : Nat → Bool) (b : Nat) : (fwht (ints ⟨box n l v b⟩)).length = 2 ^ (others n l).length := by
  rw [ints_box, fwht_length (bits_length _ _)]

theorem spectrum_entry {f : Boolf} (h : Sound f) {l : List Nat} (hn : l.Nodup) (hl : ∀ x ∈ l, x < f.adicity) {k : Nat} :
    (fwht (ints ⟨box f.adicity l (fun k => f.eval k.testBit) (gather l k)⟩))[gather (others f.adicity l) k]? = some (boxEntry f l k) := by
  have h1 := fwht_spec (bits_length (others f.adicity l).length fun i => f.eval (scatter f.adicity l (gather l k) i).testBit) (gather_lt (others f.adicity l) k)
  rw [Finset.sum_congr rfl fun j hj => by rw [ent_bits (Finset.mem_range.1 hj)], signed_count (fun i => f.eval (scatter f.adicity l (gather l k) i).testBit)] at h1
  have hlt : gather (others f.adicity l) k < (fwht (ints ⟨box f.adicity l (fun k => f.eval k.testBit) (gather l k)⟩)).length := by
    rw [spectrum_length]; exact gather_lt _ _
  rw [List.getElem?_eq_getElem hlt, Option.some.injEq]
  rw [ints_box] at hlt
  unfold ent at h1
  rw [List.getD_eq_getElem?_getD, List.getElem?_eq_getElem hlt, Option.getD_some] at h1
  have key : ∀ Q : Nat → Prop, [DecidablePred Q] →
      (((Finset.range (2 ^ (others f.adicity l).length)).filter fun i => f.eval (scatter f.adicity l (gather l k) i).testBit = true ∧
        Q (overlap i (gather (others f.adicity l) k))).card) =
      (List.range (2 ^ f.adicity)).countP fun i => f.getItem i = .ok true ∧ (∀ x ∈ l, i.testBit x = k.testBit x) ∧ Q (common (others f.adicity l) i k) := by
    intro Q _
    have c := countP_card (2 ^ (others f.adicity l).length) fun i => decide (f.eval (scatter f.adicity l (gather l k) i).testBit = true ∧
      Q (overlap i (gather (others f.adicity l) k)))
    simp only [decide_eq_true_eq] at c
    rw [← c]
    have d := count_box hn hl (gather_lt l k) fun j => decide (f.eval j.testBit = true ∧ Q (common (others f.adicity l) j k))
    rw [show (List.range (2 ^ f.adicity)).countP (fun i => decide (f.getItem i = .ok true ∧ (∀ x ∈ l, i.testBit x = k.testBit x) ∧
        Q (common (others f.adicity l) i k))) = (List.range (2 ^ f.adicity)).countP
        fun j => decide (f.eval j.testBit = true ∧ Q (common (others f.adicity l) j k)) && (gather l j == gather l k) from ?_, ← d]
    · apply List.countP_congr
      intro i hi
      have := overlap_gather (others f.adicity l) (scatter f.adicity l (gather l k) i) k
      rw [gather_others_scatter (List.mem_range.1 hi)] at this
      rw [this]
    · apply List.countP_congr
      intro j _
      have e : gather l j = gather l k ↔ ∀ x ∈ l, j.testBit x = k.testBit x := valB_map_eq
      rw [getItem_eq h]
      simp only [Bool.and_eq_true, decide_eq_true_eq, beq_iff_eq, e, Except.ok.injEq]
      tauto
  rw [show (fwht (ints ⟨box f.adicity l (fun k => f.eval k.testBit) (gather l k)⟩))[gather (others f.adicity l) k] = _ from h1]
  unfold boxEntry
  rw [key Even, key Odd]

/-- the spectrum of a box -/
theorem spectrum_eq {f : Boolf} (h : Sound f) {l : List Nat} (hn : l.Nodup) (hl : ∀ x ∈ l, x < f.adicity) {b : Nat} (hb : b < 2 ^ l.length) :
    fwht (ints ⟨box f.adicity l (fun k => f.eval k.testBit) b⟩) =
      (List.range (2 ^ (others f.adicity l).length)).map fun i => boxEntry f l (scatter f.adicity l b i) := by
  apply List.ext_getElem?
  intro i
  rw [List.getElem?_map]
  by_cases hi : i < 2 ^ (others f.adicity l).length
  · rw [List.getElem?_range hi, Option.map_some]
    have := spectrum_entry h hn hl (k := scatter f.adicity l b i)
    rw [gather_scatter hn hl hb, gather_others_scatter hi] at this
    exact this
  · rw [List.getElem?_eq_none (by rw [spectrum_length]; omega), List.getElem?_eq_none (by simpa using hi)]; rfl

/-- the spectra of all boxes -/
def spectra (f : Boolf) (l : List Nat) : List (List Int) := boxes f.adicity l (boxEntry f l)

theorem hyperSpectra_eq {f : Boolf} (h : Sound f) {l : List Nat} (hn : l.Nodup) (hl : ∀ x ∈ l, x < f.adicity) :
    f.hyperfissionWalshSpectra (l.map Int.ofNat) = .ok (spectra f l) := by
  unfold Boolf.hyperfissionWalshSpectra
  rw [hyperfission_eq h hn hl]
  simp only [bind, Except.bind, pure, Except.pure, boxes_eq, List.map_map, spectra]
  congr 1
  apply List.map_congr_left
  intro b hb
  exact spectrum_eq h hn hl (List.mem_range.1 hb)

theorem spectra_get {f : Boolf} {l : List Nat} {k : Nat} (hk : k < 2 ^ f.adicity) :
    (spectra f l)[gather l k]?.bind (·[gather (others f.adicity l) k]?) = some (boxEntry f l k) := by
  unfold spectra
  rw [boxes_eq, List.getElem?_map, List.getElem?_range (gather_lt _ _)]
  simp only [Option.map_some, Option.bind_some, box]
  rw [List.getElem?_map, List.getElem?_range (gather_lt _ _), Option.map_some, scatter_gather hk]

/-- **C92.** The Walsh spectra of the boxes.  The entry for a key counts the true keys in the same box, with a sign by the number of common digits at the
other places.  Zipping the spectra together puts the entry of each key at its own place. -/
theorem C92_spectra (f : Boolf) (hf : Obj f) (dims : List Nat) (hn : dims.Nodup) (hd : ∀ x ∈ dims, x < f.adicity) :
    ∃ s t, f.hyperfissionWalshSpectra (dims.map Int.ofNat) = .ok s ∧ f.hyperfissionWalshSpectraAbs (dims.map Int.ofNat) = .ok t ∧
      s.length = 2 ^ dims.length ∧ (∀ w ∈ s, w.length = 2 ^ (f.adicity - dims.length)) ∧
      t.length = 2 ^ dims.length ∧ (∀ w ∈ t, w.length = 2 ^ (f.adicity - dims.length)) ∧
      (∀ k < 2 ^ f.adicity, s[gather dims k]?.bind (·[gather (others f.adicity dims) k]?) = some (boxEntry f dims k) ∧
        t[gather dims k]?.bind (·[gather (others f.adicity dims) k]?) = some |boxEntry f dims k|) ∧
      f.hyperfissionWalshSpectraZipped (dims.map Int.ofNat) = .ok ((List.range (2 ^ f.adicity)).map (boxEntry f dims)) := by
  have h := hf.good.toSound
  have hlen := others_length hn hd
  have hr : (others f.adicity dims).length = f.adicity - dims.length := by omega
  have hs : ∀ w ∈ spectra f dims, w.length = 2 ^ (f.adicity - dims.length) := by
    intro w hw
    obtain ⟨b, _, rfl⟩ := List.mem_map.1 hw
    simp [hr]
  refine ⟨_, (spectra f dims).map absAll, hyperSpectra_eq h hn hd, ?_, by simp [spectra, boxes], hs, by simp [spectra, boxes], ?_, fun k hk => ⟨spectra_get hk, ?_⟩, ?_⟩
  · unfold Boolf.hyperfissionWalshSpectraAbs
    rw [hyperSpectra_eq h hn hd]; rfl
  · intro w hw
    obtain ⟨u, hu, rfl⟩ := List.mem_map.1 hw
    simp only [absAll, List.length_map]
    exact hs u hu
  · have := spectra_get (l := dims) hk
    rw [List.getElem?_map]
    cases e : (spectra f dims)[gather dims k]? with
    | none => rw [e] at this; cases this
    | some w =>
      rw [e] at this
      simp only [Option.bind_some, Option.map_some, absAll] at this ⊢
      rw [List.getElem?_map, this]; rfl
  · unfold Boolf.hyperfissionWalshSpectraZipped
    rw [hyperSpectra_eq h hn hd]
    simp only [bind, Except.bind, List.length_map]
    by_cases h0 : dims = []
    · subst h0
      simp only [List.length_nil, if_true, spectra, boxes_eq, pow_zero, List.range_one, List.map_cons, List.map_nil, firstOf, box]
      rw [hr]
      simp only [List.length_nil, Nat.sub_zero]
      congr 1
      apply List.map_congr_left
      intro i hi
      rw [scatter_nil (List.mem_range.1 hi)]
    · rw [if_neg (by simpa using h0), sequence_eq hn hd h0]
      simp only
      unfold spectra
      exact (zipApart_boxes hn hd (boxEntry f dims)).2

/-- **C92.** The spectra of a single fission are those of the hyperfission with one dimension, in all variants. -/
theorem C92_single_spectra (f : Boolf) (hf : Obj f) (h0 : 0 < f.adicity) :
    ∃ s a sl al z za, f.fissionWalshSpectra = .ok s ∧ f.fissionWalshSpectraAbs = .ok a ∧ f.fissionWalshSpectraLayered = .ok sl ∧
      f.fissionWalshSpectraLayeredAbs = .ok al ∧ f.fissionWalshSpectraZipped = .ok z ∧ f.fissionWalshSpectraAbsZipped = .ok za ∧
      s.length = f.adicity ∧ a.length = f.adicity ∧ sl.length = f.adicity ∧ al.length = f.adicity ∧ z.length = f.adicity ∧ za.length = f.adicity ∧
      ∀ d < f.adicity,
        (s[d]?.map fun p => .ok [p.1, p.2]) = some (f.hyperfissionWalshSpectra [(d : Int)]) ∧
        (a[d]?.map fun p => .ok [p.1, p.2]) = some (f.hyperfissionWalshSpectraAbs [(d : Int)]) ∧
        (al[d]?.map fun p => .ok [p.1, p.2]) = some (f.hyperfissionWalshSpectraLayeredAbs [(d : Int)]) ∧
        (sl[d]?.map fun p => .ok [p.1, p.2]) = some (f.hyperfissionWalshSpectra [(d : Int)] >>= fun s => s.mapM flatToLayered) ∧
        (z[d]?.map Except.ok) = some (f.hyperfissionWalshSpectraZipped [(d : Int)]) ∧
        (∀ k < 2 ^ f.adicity, z[d]?.bind (·[k]?) = some (boxEntry f [d] k) ∧ za[d]?.bind (·[k]?) = some |boxEntry f [d] k|) := by
  have h := hf.good.toSound
  have hmem : ∀ d < f.adicity, ∀ x ∈ [d], x < f.adicity := by simp
  have e1 : f.fissionWalshSpectra = .ok ((List.range f.adicity).map fun d =>
      (box f.adicity [d] (boxEntry f [d]) 0, box f.adicity [d] (boxEntry f [d]) 1)) := by
    unfold Boolf.fissionWalshSpectra
    rw [fissions_eq h h0]
    simp only [bind, Except.bind, pure, Except.pure, List.map_map]
    congr 1
    apply List.map_congr_left
    intro d hd
    have hd := List.mem_range.1 hd
    simp only [Function.comp]
    rw [spectrum_eq h (by simp) (hmem d hd) (by simp), spectrum_eq h (by simp) (hmem d hd) (by simp)]
    rfl
  have e2 : f.fissionWalshSpectraAbs = .ok ((List.range f.adicity).map fun d =>
      (absAll (box f.adicity [d] (boxEntry f [d]) 0), absAll (box f.adicity [d] (boxEntry f [d]) 1))) := by
    unfold Boolf.fissionWalshSpectraAbs
    rw [e1]
    simp only [bind, Except.bind, pure, Except.pure, List.map_map]
    rfl
  have lay : ∀ (d b : Nat) (g : Nat → Int), ∃ r, flatToLayered (box f.adicity [d] g b) = .ok r := by
    intro d b g
    exact ⟨_, flatToLayered_eq (n := (others f.adicity [d]).length) 0 (by simp [box])⟩
  choose F hF using lay
  have eabs : ∀ d b, absAll (box f.adicity [d] (boxEntry f [d]) b) = box f.adicity [d] (fun k => |boxEntry f [d] k|) b := by
    intro d b
    unfold absAll box
    rw [List.map_map]
    rfl
  have e3 : f.fissionWalshSpectraLayered = .ok ((List.range f.adicity).map fun d => (F d 0 (boxEntry f [d]), F d 1 (boxEntry f [d]))) := by
    unfold Boolf.fissionWalshSpectraLayered
    rw [e1]
    simp only [bind, Except.bind]
    rw [mapM_except_map]
    intro d _
    simp only
    rw [hF, hF]
    rfl
  have e4 : f.fissionWalshSpectraLayeredAbs = .ok ((List.range f.adicity).map fun d =>
      (F d 0 (fun k => |boxEntry f [d] k|), F d 1 (fun k => |boxEntry f [d] k|))) := by
    unfold Boolf.fissionWalshSpectraLayeredAbs
    rw [e2]
    simp only [bind, Except.bind]
    rw [mapM_except_map]
    intro d _
    simp only
    rw [eabs, eabs, hF, hF]
    rfl
  have e5 : f.fissionWalshSpectraZipped = .ok ((List.range f.adicity).map fun d => (List.range (2 ^ f.adicity)).map (boxEntry f [d])) := by
    unfold Boolf.fissionWalshSpectraZipped
    rw [makeAtompatterns_eq h0, e1]
    simp only [bind, Except.bind]
    apply mapM_ok
    intro d hd
    have hd' := List.mem_range.1 hd
    rw [List.getElem?_map, List.getElem?_map, List.getElem?_range hd']
    simp only [Option.map_some]
    have e : (atomB f.adicity d).vector.map Bool.toNat = (List.range (2 ^ f.adicity)).map (gather [d]) := by
      unfold atomB
      simp only [List.map_map]
      apply List.map_congr_left
      intro k _
      simp [gather_singleton]
    rw [e]
    exact (zipApart_boxes (by simp) (hmem d hd') (boxEntry f [d])).2
  have e6 : f.fissionWalshSpectraAbsZipped = .ok (((List.range f.adicity).map fun d => (List.range (2 ^ f.adicity)).map (boxEntry f [d])).map absAll) := by
    unfold Boolf.fissionWalshSpectraAbsZipped
    rw [e5]; rfl
  refine ⟨_, _, _, _, _, _, e1, e2, e3, e4, e5, e6, by simp, by simp, by simp, by simp, by simp, by simp, fun d hd => ?_⟩
  have g0 : f.hyperfissionWalshSpectra [(d : Int)] = .ok (spectra f [d]) := hyperSpectra_eq (l := [d]) h (by simp) (hmem d hd)
  have g1 : f.hyperfissionWalshSpectraAbs [(d : Int)] = .ok ((spectra f [d]).map absAll) := by
    unfold Boolf.hyperfissionWalshSpectraAbs; rw [g0]; rfl
  have gz := (C92_spectra f hf [d] (by simp) (hmem d hd)).choose_spec.choose_spec.2.2.2.2.2.2.2
  simp only [List.getElem?_map, List.getElem?_range hd, Option.map_some]
  refine ⟨?_, ?_, ?_, ?_, ?_, fun k hk => ⟨?_, ?_⟩⟩
  · rw [g0]; rfl
  · rw [g1]; rfl
  · unfold Boolf.hyperfissionWalshSpectraLayeredAbs
    rw [g1]
    simp only [bind, Except.bind, spectra, boxes_singleton, List.map_cons, List.map_nil, eabs]
    congr 1
    simp only [List.mapM_cons, List.mapM_nil, hF]
    rfl
  · rw [g0]
    simp only [bind, Except.bind, spectra, boxes_singleton]
    congr 1
    simp only [List.mapM_cons, List.mapM_nil, hF]
    rfl
  · congr 1
    exact gz.symm
  · simp [List.getElem?_range hk]
  · simp [List.getElem?_range hk, absAll]

/-- **C92.** `hyperfission_walsh_spectra_layered_abs`: layer `w` of a box has the absolute values at the positions with `w` digits 1, in their order. -/
theorem C92_layered_abs (f : Boolf) (hf : Obj f) (dims : List Nat) (hn : dims.Nodup) (hd : ∀ x ∈ dims, x < f.adicity) :
    ∃ s t, f.hyperfissionWalshSpectra (dims.map Int.ofNat) = .ok s ∧ f.hyperfissionWalshSpectraLayeredAbs (dims.map Int.ofNat) = .ok t ∧
      t.length = 2 ^ dims.length ∧ (∀ x ∈ t, x.length = f.adicity - dims.length + 1) ∧
      ∀ (b : Nat) (u : List Int) (w : Nat), s[b]? = some u → w ≤ f.adicity - dims.length →
        ((t[b]?.bind (·[w]?)).map (List.map some)) = some (((List.range u.length).filter fun i => ones (f.adicity - dims.length) i = w).map fun i => u[i]?.map fun x => |x|) := by
  have h := hf.good.toSound
  have hlen := others_length hn hd
  have hr : (others f.adicity dims).length = f.adicity - dims.length := by omega
  refine ⟨_, (spectra f dims).map fun u => (List.range (f.adicity - dims.length + 1)).map fun w =>
    ((List.range (2 ^ (f.adicity - dims.length))).filter fun k => ones (f.adicity - dims.length) k = w).map fun k => (absAll u).getD k 0,
    hyperSpectra_eq h hn hd, ?_, by simp [spectra, boxes], ?_, ?_⟩
  · unfold Boolf.hyperfissionWalshSpectraLayeredAbs Boolf.hyperfissionWalshSpectraAbs
    rw [hyperSpectra_eq h hn hd]
    simp only [bind, Except.bind, pure, Except.pure]
    apply mapM_except_map
    intro u hu
    obtain ⟨b, _, rfl⟩ := List.mem_map.1 hu
    rw [flatToLayered_eq (n := f.adicity - dims.length) 0 (by simp [absAll, hr])]
  · intro x hx
    obtain ⟨u, _, rfl⟩ := List.mem_map.1 hx
    simp
  · intro b u w hb hw
    have hu : u.length = 2 ^ (f.adicity - dims.length) := by
      obtain ⟨c, _, rfl⟩ := List.mem_map.1 (List.mem_of_getElem? hb)
      simp [hr]
    rw [List.getElem?_map, hb]
    simp only [Option.map_some, Option.bind_some]
    rw [List.getElem?_map, List.getElem?_range (by omega)]
    simp only [Option.map_some, Option.some.injEq, List.map_map, hu]
    apply List.map_congr_left
    intro i hi
    have hi := List.mem_range.1 (List.mem_filter.1 hi).1
    simp only [Function.comp, absAll, List.getD_eq_getElem?_getD, List.getElem?_map]
    rw [List.getElem?_eq_getElem (by omega)]
    rfl

end Verif.BF
