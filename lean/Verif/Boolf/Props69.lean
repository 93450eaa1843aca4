import Verif.Boolf.Props68

/-!
# C119: spots, links and crossings of a collection
-/

namespace Verif.BF
open Verif.Py Verif.BV Verif.P Verif.W Verif.SP
open Verif.A hiding Mat

/-! ### specification -/

/-- two neighboring spots of the set, the first without the digit `k` -/
def IsLink (S : Nat → Prop) (k a : Nat) : Prop := a.testBit k = false ∧ S a ∧ S (a ^^^ 2 ^ k)

/-- two links in direction `k`, which are opposite sides of a square, the first without the digit `j` -/
def IsCrossing (S : Nat → Prop) (k j a : Nat) : Prop := j ≠ k ∧ a.testBit j = false ∧ IsLink S k a ∧ IsLink S k (a ^^^ 2 ^ j)

/-! ### spots -/

theorem foldl_addSet {α β : Type} [DecidableEq β] (g : α → β) : ∀ (l : List α) (s : List β), s.Nodup →
    (l.foldl (fun s v => addSet s (g v)) s).Nodup ∧ ∀ x, x ∈ l.foldl (fun s v => addSet s (g v)) s ↔ x ∈ s ∨ ∃ v ∈ l, g v = x
  | [], s, h => by simpa using h
  | v :: l, s, h => by
    have hn : (addSet s (g v)).Nodup ∧ ∀ x, x ∈ addSet s (g v) ↔ x ∈ s ∨ x = g v := by
      unfold addSet
      split
      · next hm =>
        refine ⟨h, fun x => ⟨.inl, ?_⟩⟩
        rintro (h | rfl)
        · exact h
        · exact hm
      · next hm =>
        refine ⟨?_, fun x => by simp⟩
        rw [List.nodup_append]
        refine ⟨h, by simp, ?_⟩
        intro a ha b hb hab
        rw [List.mem_singleton] at hb
        subst hab
        subst hb
        exact hm ha
    obtain ⟨h1, h2⟩ := foldl_addSet g l _ hn.1
    rw [List.foldl_cons]
    refine ⟨h1, fun x => ?_⟩
    rw [h2, hn.2]
    constructor
    · rintro ((h | rfl) | ⟨w, hw, rfl⟩)
      · exact .inl h
      · exact .inr ⟨v, by simp, rfl⟩
      · exact .inr ⟨w, by simp [hw], rfl⟩
    · rintro (h | ⟨w, hw, rfl⟩)
      · exact .inl (.inl h)
      · rcases List.mem_cons.1 hw with rfl | hw
        · exact .inl (.inr rfl)
        · exact .inr ⟨w, hw, rfl⟩

theorem spotint_foldl : ∀ (v : List Int) (k n : Nat),
    (v.zipIdx k).foldl (fun n e => if e.1 = 1 then n + 2 ^ e.2 else n) n = n + 2 ^ k * valB (v.map fun x => decide (x = 1))
  | [], k, n => by simp [valB]
  | x :: v, k, n => by
    rw [List.zipIdx_cons, List.foldl_cons, spotint_foldl v (k + 1)]
    simp only [List.map_cons, valB, Nat.pow_succ]
    by_cases hx : x = 1
    · simp only [hx, if_true, decide_true, Bool.toNat_true]
      ring
    · simp only [hx, if_false, decide_false, Bool.toNat_false]
      ring

theorem spotintOf_eq (v : List Int) : spotintOf v = valB (v.map fun x => decide (x = 1)) := by
  unfold spotintOf
  rw [spotint_foldl]
  simp

theorem spotintOf_spotVector {n s : Nat} (hs : s < 2 ^ n) : spotintOf (spotVector n s) = s := by
  rw [spotintOf_eq]
  apply Nat.eq_of_testBit_eq
  intro k
  rw [testBit_valB, List.getD_eq_getElem?_getD, List.getElem?_map]
  by_cases hk : k < n
  · rw [spotVector_get hk]
    by_cases hb : s.testBit k = true
    · simp [hb]
    · rw [Bool.not_eq_true] at hb
      simp [hb]
  · rw [List.getElem?_eq_none (by rw [(spotVector_ternary n s).1]; omega), Nat.testBit_lt_two_pow (lt_of_lt_of_le hs (Nat.pow_le_pow_right (by omega) (by omega)))]
    rfl

theorem Coll.layer {n : Nat} {c : Collection} (h : Coll n c) (d : Nat) :
    ((c.segments.get? d).getD []).keys.Nodup ∧ (∀ e ∈ (c.segments.get? d).getD [], e.2 = segmentOf e.1) ∧
      ∀ v, v ∈ ((c.segments.get? d).getD []).keys ↔ v.count 0 = d ∧ c.inquire v = true := by
  refine ⟨?_, ?_, fun v => ⟨fun hm => ?_, ?_⟩⟩
  · cases hg : c.segments.get? d with
    | none => simp [Dict.keys]
    | some D => exact (h.inner d D hg).1
  · intro e he
    cases hg : c.segments.get? d with
    | none => rw [hg] at he; simp at he
    | some D => rw [hg] at he; exact ((h.inner d D hg).2 e he).2.2
  · cases hg : c.segments.get? d with
    | none => rw [hg] at hm; simp [Dict.keys] at hm
    | some D =>
      rw [hg] at hm
      obtain ⟨e, he, rfl⟩ := List.mem_map.1 hm
      obtain ⟨_, q, _⟩ := (h.inner d D hg).2 e he
      exact ⟨q, inquire_iff.2 ⟨D, by rw [q]; exact hg, hm⟩⟩
  · rintro ⟨rfl, hi⟩
    obtain ⟨D, q1, q2⟩ := inquire_iff.1 hi
    rw [q1]
    exact q2

theorem spotVector_count (n s : Nat) : (spotVector n s).count 0 = 0 := by
  rw [List.count_eq_zero]
  intro h
  obtain ⟨k, _, hk⟩ := List.mem_map.1 h
  split at hk <;> simp at hk

theorem getSpots_spec {n : Nat} {c : Collection} {S : Nat → Prop} (h : Coll n c) (hS : ∀ v, c.inquire v = true ↔ FullFace n S v) (hlt : ∀ s, S s → s < 2 ^ n) :
    c.getSpots.Nodup ∧ ∀ s, s ∈ c.getSpots ↔ S s := by
  obtain ⟨h1, h2⟩ := foldl_addSet spotintOf ((c.segments.get? 0).getD []).keys [] List.nodup_nil
  refine ⟨h1, fun s => ?_⟩
  unfold Collection.getSpots
  rw [h2]
  obtain ⟨_, _, hk⟩ := h.layer 0
  constructor
  · rintro (hc | ⟨v, hv, rfl⟩)
    · cases hc
    · rw [hk, hS] at hv
      obtain ⟨s, hs, rfl⟩ := exists_spot hv.2.1 hv.1
      rw [spotintOf_spotVector hs]
      exact hv.2.2 s ((adjoins_spotVector hs).2 rfl)
  · intro hs
    have hl := hlt s hs
    refine .inr ⟨spotVector n s, (hk _).2 ⟨spotVector_count n s, (hS _).2 ⟨spotVector_ternary n s, ?_⟩⟩, spotintOf_spotVector hl⟩
    intro t ht
    rw [(adjoins_spotVector hl).1 ht]
    exact hs

/-! ### links -/

theorem testBit_flip (a k i : Nat) : (a ^^^ 2 ^ k).testBit i = (a.testBit i ^^ decide (k = i)) := by
  rw [Nat.testBit_xor, Nat.testBit_two_pow]

theorem flip_lt {n a k : Nat} (ha : a < 2 ^ n) (hk : k < n) : a ^^^ 2 ^ k < 2 ^ n :=
  Nat.xor_lt_two_pow ha (Nat.pow_lt_pow_right (by omega) hk)

theorem lt_flip {a k : Nat} (h : a.testBit k = false) : a < a ^^^ 2 ^ k := by
  apply Nat.lt_of_testBit k h
  · rw [testBit_flip, h]; simp
  · intro j hj
    rw [testBit_flip]
    simp [show ¬ k = j by omega]

theorem spotVector_set {n a k : Nat} : (spotVector n a).set k (if a.testBit k then -1 else 1) = spotVector n (a ^^^ 2 ^ k) := by
  apply List.ext_getElem?
  intro i
  by_cases hi : i < n
  · rw [spotVector_get hi, testBit_flip]
    by_cases hk : k = i
    · subst hk
      rw [List.getElem?_set_self (by rw [(spotVector_ternary n a).1]; exact hi)]
      cases a.testBit k <;> simp
    · rw [List.getElem?_set_ne hk, spotVector_get hi]
      simp [hk]
  · rw [List.getElem?_eq_none (by rw [List.length_set, (spotVector_ternary n a).1]; omega), List.getElem?_eq_none (by rw [(spotVector_ternary n _).1]; omega)]

theorem adjoins_zero {n : Nat} {v : List Int} {k s : Nat} (hk : v[k]? = some 0) : Adjoins n v s ↔ Adjoins n (v.set k (-1)) s ∨ Adjoins n (v.set k 1) s := by
  have hlt : k < v.length := (List.getElem?_eq_some_iff.1 hk).1
  constructor
  · intro h
    have e : v = (v.set k (-1)).set k 0 := (set_set_self hk).symm
    rw [e] at h
    have := h.of_superior (.inr rfl) (List.getElem?_set_self hlt)
    rw [List.set_set] at this
    exact this
  · rintro (h | h)
    · exact h.of_set hk
    · exact h.of_set hk

/-- the vector of a link -/
def linkVector (n k a : Nat) : List Int := (spotVector n a).set k 0

theorem linkVector_get {n k a : Nat} (hk : k < n) : (linkVector n k a)[k]? = some 0 :=
  List.getElem?_set_self (by rw [(spotVector_ternary n a).1]; exact hk)

theorem linkVector_ternary (n k a : Nat) : Ternary n (linkVector n k a) := (spotVector_ternary n a).set k (by simp)

theorem linkVector_zeroKeys {n k a : Nat} (hk : k < n) : zeroKeys (linkVector n k a) = [k] := by
  have hm : ∀ i, i ∈ zeroKeys (linkVector n k a) ↔ i = k := by
    intro i
    rw [mem_zeroKeys]
    by_cases hik : i = k
    · subst hik
      simp [linkVector_get hk]
    · unfold linkVector
      rw [List.getElem?_set_ne (Ne.symm hik)]
      constructor
      · intro h
        have hlt := (List.getElem?_eq_some_iff.1 h).1
        rw [(spotVector_ternary n a).1] at hlt
        rw [spotVector_get hlt] at h
        split at h <;> simp at h
      · intro h
        exact absurd h hik
  have hn := nodup_zeroKeys (linkVector n k a)
  match h : zeroKeys (linkVector n k a), hm, hn with
  | [], hm, _ => exact absurd ((hm k).2 rfl) (by simp)
  | [x], hm, _ => rw [(hm x).1 (by simp)]
  | x :: y :: l, hm, hn =>
    have e1 := (hm x).1 (by simp)
    have e2 := (hm y).1 (by simp)
    rw [e1, e2] at hn
    simp at hn

theorem linkVector_adjoins {n k a s : Nat} (hk : k < n) (ha : a < 2 ^ n) (hb : a.testBit k = false) : Adjoins n (linkVector n k a) s ↔ s = a ∨ s = a ^^^ 2 ^ k := by
  rw [adjoins_zero (linkVector_get hk)]
  unfold linkVector
  rw [List.set_set, List.set_set]
  have e1 : (spotVector n a).set k (-1) = spotVector n a := by
    have := set_set_self (y := 0) (spotVector_get (s := a) hk)
    rw [List.set_set] at this
    rw [hb] at this
    exact this
  have e2 : (spotVector n a).set k 1 = spotVector n (a ^^^ 2 ^ k) := by
    rw [← spotVector_set, hb]
    rfl
  rw [e1, e2, adjoins_spotVector ha, adjoins_spotVector (flip_lt ha hk)]

theorem linkVector_spots {n k a : Nat} (hk : k < n) (ha : a < 2 ^ n) (hb : a.testBit k = false) : segmentToAdjacentSpots (linkVector n k a) = .ok [a, a ^^^ 2 ^ k] := by
  obtain ⟨L, h1, h2, h3, _⟩ := C118_segment_to_adjacent_spots (linkVector_ternary n k a)
  rw [h1]
  congr 1
  apply asc_ext h2 (by simpa using lt_flip hb)
  intro s
  rw [h3, linkVector_adjoins hk ha hb]
  simp

theorem exists_link {n : Nat} {v : List Int} (h : Ternary n v) (h1 : v.count 0 = 1) : ∃ k a, k < n ∧ a < 2 ^ n ∧ a.testBit k = false ∧ v = linkVector n k a := by
  have hlen : (zeroKeys v).length = 1 := by rw [length_zeroKeys, h1]
  obtain ⟨k, hk⟩ := List.length_eq_one_iff.1 hlen
  have hkz : v[k]? = some 0 := mem_zeroKeys.1 (by rw [hk]; simp)
  have hkl := (List.getElem?_eq_some_iff.1 hkz).1
  have hkn : k < n := by rw [← h.1]; exact hkl
  have hT : Ternary n (v.set k (-1)) := h.set k (by simp)
  have hc : (v.set k (-1)).count 0 = 0 := by
    rw [List.count_set hkl, h1, (List.getElem?_eq_some_iff.1 hkz).2]
    simp
  obtain ⟨a, ha, he⟩ := exists_spot hT hc
  refine ⟨k, a, hkn, ha, ?_, ?_⟩
  · have := spotVector_get (s := a) hkn
    rw [← he, List.getElem?_set_self hkl] at this
    by_contra hb
    rw [Bool.not_eq_false] at hb
    rw [hb] at this
    simp at this
  · unfold linkVector
    rw [← he]
    exact (set_set_self hkz).symm

theorem linkVector_full {n k a : Nat} {S : Nat → Prop} (hk : k < n) (ha : a < 2 ^ n) (hb : a.testBit k = false) : FullFace n S (linkVector n k a) ↔ IsLink S k a := by
  constructor
  · intro h
    exact ⟨hb, h.2 _ ((linkVector_adjoins hk ha hb).2 (.inl rfl)), h.2 _ ((linkVector_adjoins hk ha hb).2 (.inr rfl))⟩
  · rintro ⟨_, h1, h2⟩
    refine ⟨linkVector_ternary n k a, fun s hs => ?_⟩
    rcases (linkVector_adjoins hk ha hb).1 hs with rfl | rfl
    · exact h1
    · exact h2

theorem IsLink.lt {n k a : Nat} {S : Nat → Prop} (hlt : ∀ s, S s → s < 2 ^ n) (h : IsLink S k a) : k < n ∧ a < 2 ^ n := by
  refine ⟨?_, hlt _ h.2.1⟩
  have h1 := hlt _ h.2.2
  have h2 : (a ^^^ 2 ^ k).testBit k = true := by rw [testBit_flip, h.1]; simp
  have := Nat.ge_two_pow_of_testBit h2
  exact (Nat.pow_lt_pow_iff_right (a := 2) (by omega)).1 (by omega)

theorem linkVector_count {n k a : Nat} (hk : k < n) : (linkVector n k a).count 0 = 1 := by
  rw [← length_zeroKeys, linkVector_zeroKeys hk]
  rfl

theorem linksLoop'_spec {n : Nat} : ∀ (D : Dict (List Int) Segment) (R : Nat → List Nat → Prop) (d : Dict Nat (List (List Nat))),
    (∀ e ∈ D, Ternary n e.1 ∧ e.1.count 0 = 1 ∧ e.2 = segmentOf e.1) → SetsOf R d →
    ∃ d', linksLoop' D d = .ok d' ∧ SetsOf (fun k x => R k x ∨ ∃ a, k < n ∧ a < 2 ^ n ∧ a.testBit k = false ∧ linkVector n k a ∈ D.keys ∧ x = [a, a ^^^ 2 ^ k]) d'
  | [], R, d, _, h => ⟨d, rfl, h.congr fun k x => by simp [Dict.keys]⟩
  | (v, s) :: D, R, d, hD, h => by
    obtain ⟨t1, t2, t3⟩ := hD _ List.mem_cons_self
    obtain ⟨k, a, hk, ha, hb, he⟩ := exists_link t1 t2
    simp only at t1 t2 t3 he
    subst t3
    obtain ⟨d', h1, h2⟩ := linksLoop'_spec D _ _ (fun e he => hD e (List.mem_cons_of_mem _ he)) (h.addTo k [a, a ^^^ 2 ^ k])
    refine ⟨d', ?_, h2.congr fun i x => ?_⟩
    · rw [linksLoop']
      have e1 : item (segmentOf v).zeroAtomkeys 0 = .ok k := by
        show item (zeroKeys v) 0 = _
        rw [he, linkVector_zeroKeys hk]
        rfl
      have e2 : segmentToAdjacentSpots v = .ok [a, a ^^^ 2 ^ k] := by rw [he, linkVector_spots hk ha hb]
      rw [e1, e2]
      exact h1
    · constructor
      · rintro ((hR | ⟨rfl, rfl⟩) | ⟨b, p1, p2, p3, p4, p5⟩)
        · exact .inl hR
        · exact .inr ⟨a, hk, ha, hb, by simp [Dict.keys, he], rfl⟩
        · exact .inr ⟨b, p1, p2, p3, by simpa [Dict.keys] using Or.inr p4, p5⟩
      · rintro (hR | ⟨b, p1, p2, p3, p4, p5⟩)
        · exact .inl (.inl hR)
        · rw [Dict.keys, List.map_cons, List.mem_cons] at p4
          rcases p4 with p4 | p4
          · left; right
            have hp4 : linkVector n i b = v := p4
            have e1 : linkVector n i b = linkVector n k a := by rw [hp4, he]
            have e2 := linkVector_zeroKeys (a := b) p1
            rw [e1, linkVector_zeroKeys hk] at e2
            simp only [List.cons.injEq, and_true] at e2
            subst e2
            have e3 := linkVector_spots p1 p2 p3
            rw [e1, linkVector_spots hk ha hb] at e3
            cases e3
            exact ⟨rfl, p5⟩
          · exact .inr ⟨b, p1, p2, p3, p4, p5⟩

theorem getLinks_spec {n : Nat} {c : Collection} {S : Nat → Prop} (h : Coll n c) (hS : ∀ v, c.inquire v = true ↔ FullFace n S v) (hlt : ∀ s, S s → s < 2 ^ n) :
    ∃ d, c.getLinks = .ok d ∧ SetsOf (fun k x => ∃ a, IsLink S k a ∧ x = [a, a ^^^ 2 ^ k]) d := by
  obtain ⟨_, hs, hk⟩ := h.layer 1
  obtain ⟨d, h1, h2⟩ := linksLoop'_spec (n := n) ((c.segments.get? 1).getD []) (fun _ _ => False) [] (by
    intro e he
    have hm := (hk e.1).1 (List.mem_map.2 ⟨e, he, rfl⟩)
    exact ⟨((hS _).1 hm.2).1, hm.1, hs e he⟩) ⟨by simp [Dict.keys], by simp, by simp, by simp⟩
  refine ⟨d, h1, h2.congr fun k x => ?_⟩
  simp only [false_or]
  constructor
  · rintro ⟨a, p1, p2, p3, p4, p5⟩
    rw [hk, hS, linkVector_full p1 p2 p3] at p4
    exact ⟨a, p4.2, p5⟩
  · rintro ⟨a, p1, p2⟩
    obtain ⟨q1, q2⟩ := p1.lt hlt
    exact ⟨a, q1, q2, p1.1, by rw [hk, hS, linkVector_full q1 q2 p1.1]; exact ⟨linkVector_count q1, p1⟩, p2⟩

end Verif.BF
