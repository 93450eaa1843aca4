import Verif.Boolf.Props59
import Verif.Boolf.Props67

/-!
# C117: the collection of segments; C118: `segment_to_adjacent_spots`
-/

namespace Verif.BF
open Verif.Py Verif.BV Verif.P Verif.W Verif.SP
open Verif.A hiding Mat

theorem bitsOf_inj : Function.Injective bitsOf := by
  intro s t h
  apply Nat.eq_of_testBit_eq
  intro k
  rw [Bool.eq_iff_iff, ← mem_bitsOf, ← mem_bitsOf, h]

theorem perm_map_exists {α β : Type} [Nonempty α] {g : α → β} (hg : Function.Injective g) {l : List β} {s : List α} (h : l.Perm (s.map g)) :
    ∃ s' : List α, s'.Perm s ∧ l = s'.map g := by
  refine ⟨l.map (Function.invFun g), ?_, ?_⟩
  · have := h.map (Function.invFun g)
    rwa [List.map_map, Function.invFun_comp hg, List.map_id] at this
  · rw [List.map_map]
    conv_lhs => rw [← List.map_id l]
    apply List.map_congr_left
    intro x hx
    obtain ⟨a, _, rfl⟩ := List.mem_map.1 (h.mem_iff.1 hx)
    rw [Function.comp, Function.leftInverse_invFun hg]
    rfl

/-- everything about the collection of a function -/
theorem collection_spec {f : Boolf} (hf : Sound f) (hv : f.valency = f.atomvals.length) {fuel : Nat} (hfuel : 3 ^ f.valency ≤ fuel)
    {order : List (List Nat) → List (List Nat)} (ho : ∀ l, (order l).Perm l) :
    ∃ c, f.collection fuel order = .ok c ∧ Coll f.valency c ∧ ∀ v, c.inquire v = true ↔ FullFace f.valency (· ∈ f.fullspots) v := by
  unfold Boolf.collection
  rw [fullspotAtoms_eq]
  simp only [bind, Except.bind]
  have hvals : Dict.values (f.fullspots.map fun s => (s, bitsOf s)) = f.fullspots.map bitsOf := by
    rw [Dict.values, List.map_map]
    rfl
  rw [hvals]
  obtain ⟨l, h1, h2⟩ := perm_map_exists bitsOf_inj (ho (f.fullspots.map bitsOf))
  rw [h2]
  have hlt : ∀ s ∈ f.fullspots, s < 2 ^ f.valency := by
    intro s hs
    rw [hv]
    exact fullspots_lt hf hs
  have hc0 : Coll f.valency ⟨f.valency, [], List.replicate (f.valency + 1) 0⟩ := by
    refine ⟨rfl, by simp [Dict.keys], ?_, by simp, ?_⟩
    · intro d D h
      cases h
    intro d hd
    rw [List.getElem?_replicate, if_pos (by omega)]
    rfl
  obtain ⟨c, h3, h4, h5⟩ := addSpots_spec hfuel l [] _ (by rw [List.nil_append, h1.nodup_iff]; exact fullspots_nodup f) (fun s hs => hlt s (h1.mem_iff.1 hs)) hc0
    (by intro w hw; cases hw)
  refine ⟨c, h3, h4.coll, fun v => ⟨fun h => (h4.full v h).mono (by intro s hs; rw [List.nil_append] at hs; exact h1.mem_iff.1 hs), fun h => ?_⟩⟩
  apply inquire_complete (S := (· ∈ f.fullspots)) (n := f.valency) _ _ _ v rfl h
  · intro s hs _
    exact h5 s (h1.mem_iff.2 hs)
  · intro w hw k x hk hx hn
    exact h4.superior w hw rfl k x hk hx hn

/-- **C117.** The collection of segments contains exactly the faces of the hypercube all of whose spots are full spots of the function.  `number_by_dimension` counts them.
No assertion fails, the recursion ends, and the order of the set of full spots does not matter. -/
theorem C117_collection {f : Boolf} (hf : Reach f) {fuel : Nat} (hfuel : 3 ^ f.valency ≤ fuel) {order : List (List Nat) → List (List Nat)} (ho : ∀ l, (order l).Perm l) :
    ∃ c, f.collection fuel order = .ok c ∧ (∀ v, c.inquire v = true ↔ FullFace f.valency (· ∈ f.fullspots) v) ∧
      c.numberByDimension.length = f.valency + 1 ∧
      ∀ d ≤ f.valency, ∃ L : List (List Int), L.Nodup ∧ (∀ v, v ∈ L ↔ v.count 0 = d ∧ FullFace f.valency (· ∈ f.fullspots) v) ∧ c.numberByDimension[d]? = some L.length := by
  obtain ⟨c, h1, h2, h3⟩ := collection_spec hf.canon.toSound hf.canon.val hfuel ho
  refine ⟨c, h1, h3, h2.length, fun d hd => ⟨((c.segments.get? d).getD []).keys, ?_, fun v => ?_, ?_⟩⟩
  · cases hg : c.segments.get? d with
    | none => simp [Dict.keys]
    | some D => exact (h2.inner d D hg).1
  · rw [← h3]
    constructor
    · intro hm
      cases hg : c.segments.get? d with
      | none => rw [hg] at hm; simp [Dict.keys] at hm
      | some D =>
        rw [hg] at hm
        obtain ⟨e, he, rfl⟩ := List.mem_map.1 hm
        obtain ⟨_, q, _⟩ := (h2.inner d D hg).2 e he
        exact ⟨q, inquire_iff.2 ⟨D, by rw [q]; exact hg, hm⟩⟩
    · rintro ⟨rfl, hi⟩
      obtain ⟨D, q1, q2⟩ := inquire_iff.1 hi
      rw [q1]
      exact q2
  · rw [h2.number d hd, Dict.length_keys]

/-! ### `segment_to_adjacent_spots` -/

theorem mem_binaryTuples : ∀ {n : Nat} {t : List Int}, t ∈ binaryTuples n ↔ t.length = n ∧ ∀ x ∈ t, x = 0 ∨ x = 1
  | 0, t => by
    rw [binaryTuples, List.mem_singleton]
    constructor
    · rintro rfl
      simp
    · rintro ⟨h, _⟩
      exact List.length_eq_zero_iff.1 h
  | n + 1, t => by
    rw [binaryTuples, List.mem_append, List.mem_map, List.mem_map]
    constructor
    · rintro (⟨s, hs, rfl⟩ | ⟨s, hs, rfl⟩)
      · obtain ⟨h1, h2⟩ := mem_binaryTuples.1 hs
        exact ⟨by simp [h1], by simpa using h2⟩
      · obtain ⟨h1, h2⟩ := mem_binaryTuples.1 hs
        exact ⟨by simp [h1], by simpa using h2⟩
    · rintro ⟨h1, h2⟩
      match t, h1, h2 with
      | x :: s, h1, h2 =>
        have hs : s ∈ binaryTuples n := mem_binaryTuples.2 ⟨by simpa using h1, fun y hy => h2 y (by simp [hy])⟩
        rcases h2 x (by simp) with rfl | rfl
        · exact .inl ⟨s, hs, rfl⟩
        · exact .inr ⟨s, hs, rfl⟩

theorem nodup_binaryTuples : ∀ n : Nat, (binaryTuples n).Nodup
  | 0 => by simp [binaryTuples]
  | n + 1 => by
    rw [binaryTuples, List.nodup_append]
    refine ⟨(nodup_binaryTuples n).map (List.cons_injective), (nodup_binaryTuples n).map (List.cons_injective), ?_⟩
    intro a ha b hb hab
    obtain ⟨s, _, rfl⟩ := List.mem_map.1 ha
    obtain ⟨t, _, rfl⟩ := List.mem_map.1 hb
    simp at hab

theorem length_binaryTuples : ∀ n : Nat, (binaryTuples n).length = 2 ^ n
  | 0 => rfl
  | n + 1 => by
    rw [binaryTuples, List.length_append, List.length_map, List.length_map, length_binaryTuples n]
    omega

theorem fillFree_spec : ∀ (places : List Nat) (t : List Int) (v : List (Option Int)), places.Nodup → t.length = places.length → (∀ p ∈ places, p < v.length) →
    (fillFree places t v).length = v.length ∧ (∀ k, k ∉ places → (fillFree places t v)[k]? = v[k]?) ∧
      ∀ (i p : Nat) (x : Int), places[i]? = some p → t[i]? = some x → (fillFree places t v)[p]? = some (some x)
  | [], t, v, _, _, _ => by simp [fillFree]
  | p :: places, [], v, _, h, _ => by simp at h
  | p :: places, x :: t, v, hn, hl, hp => by
    rw [List.nodup_cons] at hn
    obtain ⟨h1, h2, h3⟩ := fillFree_spec places t (v.set p (some x)) hn.2 (by simpa using hl) (fun q hq => by rw [List.length_set]; exact hp q (by simp [hq]))
    rw [fillFree]
    refine ⟨by rw [h1, List.length_set], fun k hk => ?_, fun i q y hi hy => ?_⟩
    · rw [h2 k (fun h => hk (by simp [h])), List.getElem?_set_ne]
      rintro rfl
      exact hk (by simp)
    · match i with
      | 0 =>
        simp only [List.getElem?_cons_zero, Option.some.injEq] at hi hy
        subst hi
        subst hy
        rw [h2 p hn.1, List.getElem?_set_self (hp p (by simp))]
      | i + 1 => exact h3 i q y (by simpa using hi) (by simpa using hy)

theorem nodup_zeroKeys (v : List Int) : (zeroKeys v).Nodup := by
  have : (v.zipIdx.map Prod.snd).Nodup := by
    rw [List.zipIdx_map_snd]
    exact List.nodup_range'
  exact List.Nodup.sublist (List.Sublist.map _ List.filter_sublist) this

/-- the spot in the tuple -/
structure SpotOf (n : Nat) (v t : List Int) (s : Nat) : Prop where
  lt : s < 2 ^ n
  sign : ∀ (k : Nat) (x : Int), v[k]? = some x → x ≠ 0 → (s.testBit k = true ↔ x = 1)
  free : ∀ (i p : Nat) (x : Int), (zeroKeys v)[i]? = some p → t[i]? = some x → (s.testBit p = true ↔ x = 1)

theorem SpotOf.unique {n : Nat} {v t : List Int} {s s' : Nat} (hv : Ternary n v) (ht : t.length = (zeroKeys v).length) (h : SpotOf n v t s) (h' : SpotOf n v t s') : s = s' := by
  apply Nat.eq_of_testBit_eq
  intro k
  by_cases hk : k < n
  · have hk' : k < v.length := by rw [hv.1]; exact hk
    rw [Bool.eq_iff_iff]
    by_cases h0 : v[k] = 0
    · have hm : k ∈ zeroKeys v := mem_zeroKeys.2 (by rw [List.getElem?_eq_getElem hk', h0])
      obtain ⟨i, hi⟩ := List.mem_iff_getElem?.1 hm
      have hlt := (List.getElem?_eq_some_iff.1 hi).1
      have hti : t[i]? = some t[i] := List.getElem?_eq_getElem (by omega)
      rw [h.free i k _ hi hti, h'.free i k _ hi hti]
    · rw [h.sign k _ (List.getElem?_eq_getElem hk') h0, h'.sign k _ (List.getElem?_eq_getElem hk') h0]
  · rw [Nat.testBit_lt_two_pow (lt_of_lt_of_le h.lt (Nat.pow_le_pow_right (by omega) (by omega))),
      Nat.testBit_lt_two_pow (lt_of_lt_of_le h'.lt (Nat.pow_le_pow_right (by omega) (by omega)))]


/-- the digits of a filled vector -/
def digitsOf (v t : List Int) : List Int := (fillFree (zeroKeys v) t (v.map fun x => if x = -1 then some 0 else if x = 0 then none else some 1)).map fun x => x.getD 2

theorem digitsOf_spec {n : Nat} {v t : List Int} (hv : Ternary n v) (ht : t ∈ binaryTuples (zeroKeys v).length) :
    (digitsOf v t).length = n ∧ (∀ x ∈ digitsOf v t, x = 0 ∨ x = 1) ∧ (∀ (k : Nat) (x : Int), v[k]? = some x → x ≠ 0 → ((digitsOf v t)[k]? = some 1 ↔ x = 1)) ∧
      ∀ (i p : Nat) (x : Int), (zeroKeys v)[i]? = some p → t[i]? = some x → (digitsOf v t)[p]? = some x := by
  obtain ⟨t1, t2⟩ := mem_binaryTuples.1 ht
  obtain ⟨h1, h2, h3⟩ := fillFree_spec (zeroKeys v) t (v.map fun x => if x = -1 then some 0 else if x = 0 then none else some 1) (nodup_zeroKeys v) t1 (by
    intro p hp
    rw [List.length_map]
    exact (List.getElem?_eq_some_iff.1 (mem_zeroKeys.1 hp)).1)
  have hsign : ∀ (k : Nat) (x : Int), v[k]? = some x → x ≠ 0 → (digitsOf v t)[k]? = some (if x = -1 then 0 else 1) := by
    intro k x hk hx
    unfold digitsOf
    rw [List.getElem?_map, h2 k (fun h => hx (by rw [mem_zeroKeys.1 h] at hk; simpa using hk.symm)), List.getElem?_map, hk]
    simp only [Option.map_some, hx, if_false]
    split <;> rfl
  have hfree : ∀ (i p : Nat) (x : Int), (zeroKeys v)[i]? = some p → t[i]? = some x → (digitsOf v t)[p]? = some x := by
    intro i p x hi hx
    unfold digitsOf
    rw [List.getElem?_map, h3 i p x hi hx]
    rfl
  have hlen : (digitsOf v t).length = n := by
    unfold digitsOf
    rw [List.length_map, h1, List.length_map, hv.1]
  refine ⟨hlen, ?_, ?_, hfree⟩
  · intro x hx
    obtain ⟨k, hk⟩ := List.mem_iff_getElem?.1 hx
    have hkn : k < v.length := by
      rw [hv.1, ← hlen]
      exact (List.getElem?_eq_some_iff.1 hk).1
    by_cases h0 : v[k] = 0
    · have hm : k ∈ zeroKeys v := mem_zeroKeys.2 (by rw [List.getElem?_eq_getElem hkn, h0])
      obtain ⟨i, hi⟩ := List.mem_iff_getElem?.1 hm
      have hlt := (List.getElem?_eq_some_iff.1 hi).1
      have hti : t[i]? = some t[i] := List.getElem?_eq_getElem (by omega)
      rw [hfree i k _ hi hti] at hk
      cases hk
      exact t2 _ (List.getElem_mem _)
    · rw [hsign k _ (List.getElem?_eq_getElem hkn) h0] at hk
      cases hk
      split <;> simp
  · intro k x hk hx
    rw [hsign k x hk hx]
    rcases hv.2 x (List.mem_of_getElem? hk) with rfl | rfl | rfl
    · simp
    · simp at hx
    · simp

theorem spot_exists {n : Nat} {v t : List Int} (hv : Ternary n v) (ht : t ∈ binaryTuples (zeroKeys v).length) :
    ∃ b, BV.mk { vector := some (.list (digitsOf v t)) } = .ok b ∧ SpotOf n v t b.intval := by
  obtain ⟨h1, h2, h3, h4⟩ := digitsOf_spec hv ht
  obtain ⟨b, b1, b2, b3⟩ := (C26_vector (digitsOf v t) []).1 h2
  have hbit : ∀ k, b.intval.testBit k = true ↔ (digitsOf v t)[k]? = some 1 := by
    intro k
    rw [← b3, mem_exposet, intval_eq, testBit_valB, List.getD_eq_getElem?_getD]
    cases b.vector[k]? <;> simp
  refine ⟨b, b1, ?_, fun k x hk hx => by rw [hbit, h3 k x hk hx], fun i p x hi hx => by rw [hbit, h4 i p x hi hx, Option.some.injEq]⟩
  rw [intval_eq]
  have := valB_lt b.vector
  have hl : b.vector.length = n := by rw [← h1, ← b2]; rfl
  rwa [hl] at this

/-- **C118.** `segment_to_adjacent_spots` gives the ascending list of the spots whose digits agree with the signs of the vector, `2 ** d` many for `d` zeros. -/
theorem C118_segment_to_adjacent_spots {n : Nat} {v : List Int} (hv : Ternary n v) :
    ∃ L, segmentToAdjacentSpots v = .ok L ∧ L.Pairwise (· < ·) ∧ (∀ s, s ∈ L ↔ Adjoins n v s) ∧ L.length = 2 ^ v.count 0 := by
  have hraw : v.mapM ternaryToBinary = .ok (v.map fun x => if x = -1 then some 0 else if x = 0 then none else some 1) := by
    apply mapM_ok
    intro x hx
    unfold ternaryToBinary
    rcases hv.2 x hx with rfl | rfl | rfl <;> rfl
  have : Inhabited Binv := ⟨⟨[]⟩⟩
  choose! B hB1 hB2 using fun t ht => spot_exists (t := t) hv ht
  have hm : ((binaryTuples (zeroKeys v).length).mapM fun t => do
      let spot := fillFree (zeroKeys v) t (v.map fun x => if x = -1 then some 0 else if x = 0 then none else some 1)
      return (← BV.mk { vector := some (.list (spot.map fun x : Option Int => x.getD 2)) }).intval) = .ok ((binaryTuples (zeroKeys v).length).map fun t => (B t).intval) := by
    apply mapM_ok
    intro t ht
    have := hB1 t ht
    unfold digitsOf at this
    simp only [this, bind, Except.bind, pure, Except.pure]
  have hnd : ((binaryTuples (zeroKeys v).length).map fun t => (B t).intval).Nodup := by
    apply List.Nodup.map_on _ (nodup_binaryTuples _)
    intro t ht t' ht' he
    have q := hB2 t ht
    have q' := hB2 t' ht'
    rw [he] at q
    obtain ⟨l1, m1⟩ := mem_binaryTuples.1 ht
    obtain ⟨l2, m2⟩ := mem_binaryTuples.1 ht'
    apply List.ext_getElem (by rw [l1, l2])
    intro i hi hi'
    have hz : (zeroKeys v)[i]? = some ((zeroKeys v)[i]'(by omega)) := List.getElem?_eq_getElem _
    have e1 := q.free i _ _ hz (List.getElem?_eq_getElem hi)
    have e2 := q'.free i _ _ hz (List.getElem?_eq_getElem hi')
    rw [e1] at e2
    rcases m1 _ (List.getElem_mem hi) with h | h <;> rcases m2 _ (List.getElem_mem hi') with h' | h' <;> rw [h, h'] at e2 <;> simp at e2 <;> rw [h, h']
  refine ⟨sorted ((binaryTuples (zeroKeys v).length).map fun t => (B t).intval), ?_, ?_, fun s => ?_, ?_⟩
  · unfold segmentToAdjacentSpots
    simp only [bind, Except.bind, pure, Except.pure, hraw] at hm ⊢
    rw [hm]
  · have h1 := sorted_pairwise ((binaryTuples (zeroKeys v).length).map fun t => (B t).intval)
    have h2 := (sorted_perm ((binaryTuples (zeroKeys v).length).map fun t => (B t).intval)).nodup_iff.2 hnd
    exact (h1.and h2).imp fun h => lt_of_le_of_ne h.1 h.2
  · rw [mem_sorted, List.mem_map]
    constructor
    · rintro ⟨t, ht, rfl⟩
      have q := hB2 t ht
      refine ⟨q.lt, fun k x hk => ⟨fun hx => ?_, fun hx => ?_⟩⟩
      · rw [q.sign k x hk (by omega)]
        exact hx
      · have := (q.sign k x hk (by omega)).not
        rw [Bool.not_eq_true] at this
        rw [this]
        omega
    · intro hs
      have ht : (zeroKeys v).map (fun p => if s.testBit p then (1 : Int) else 0) ∈ binaryTuples (zeroKeys v).length := by
        refine mem_binaryTuples.2 ⟨by simp, ?_⟩
        intro x hx
        obtain ⟨p, _, rfl⟩ := List.mem_map.1 hx
        split <;> simp
      refine ⟨_, ht, SpotOf.unique hv (by simp) (hB2 _ ht) ⟨hs.1, fun k x hk hx => ?_, fun i p x hi hx => ?_⟩⟩
      · have := hs.2 k x hk
        rcases hv.2 x (List.mem_of_getElem? hk) with rfl | rfl | rfl
        · rw [this.2 rfl]
          simp
        · simp at hx
        · rw [this.1 rfl]
          simp
      · rw [List.getElem?_map, hi, Option.map_some, Option.some.injEq] at hx
        rw [← hx]
        by_cases hb : s.testBit p = true <;> simp [hb]
  · rw [(sorted_perm _).length_eq, List.length_map, length_binaryTuples, length_zeroKeys]

/-- **C118.** Other entries raise KeyError. -/
theorem C118_error {v : List Int} (h : ∃ x ∈ v, x ≠ -1 ∧ x ≠ 0 ∧ x ≠ 1) : segmentToAdjacentSpots v = .error .keyError := by
  have key : v.mapM ternaryToBinary = .error .keyError := by
    induction v with
    | nil => obtain ⟨x, hx, _⟩ := h; cases hx
    | cons y v ih =>
      rw [List.mapM_cons]
      by_cases hy : y ≠ -1 ∧ y ≠ 0 ∧ y ≠ 1
      · have : ternaryToBinary y = .error .keyError := by
          unfold ternaryToBinary
          rw [if_neg hy.1, if_neg hy.2.1, if_neg hy.2.2]
        rw [this]
        rfl
      · have hv : v.mapM ternaryToBinary = .error .keyError := by
          apply ih
          obtain ⟨x, hx, hx'⟩ := h
          rcases List.mem_cons.1 hx with rfl | hx
          · exact absurd hx' hy
          · exact ⟨x, hx, hx'⟩
        have : ∃ z, ternaryToBinary y = .ok z := by
          unfold ternaryToBinary
          split
          · exact ⟨_, rfl⟩
          · split
            · exact ⟨_, rfl⟩
            · split
              · exact ⟨_, rfl⟩
              · exact absurd ⟨by assumption, by assumption, by assumption⟩ hy
        obtain ⟨z, hz⟩ := this
        rw [hz, hv]
        rfl
  unfold segmentToAdjacentSpots
  rw [key]
  rfl

example : segmentToAdjacentSpots [-1, 1, 0, 0] = .ok [2, 6, 10, 14] := by decide +kernel

example : ∃ f, newTT (.str "0111".toList) = .ok f ∧ Reach f ∧ f.valency = 2 ∧ f.fullspots = [1, 2, 3] ∧ 3 ^ f.valency ≤ 9 ∧ (f.collection 9 id).map (·.numberByDimension) = .ok [3, 2, 0] := by
  obtain ⟨_, e1, e2⟩ := newTT_explicit "0111".toList [false, true, true, true] [0, 1] 2 (by decide) (by decide) (by decide) (by intro n; simp; omega) (by decide) (by decide)
  exact ⟨_, e1 (by decide), e2.reach, by decide, by decide, by decide, by decide +kernel⟩

end Verif.BF
