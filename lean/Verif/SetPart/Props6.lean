import Verif.SetPart.Model2
import Verif.Binv.Props2

/-!
# C147: partitions made of sequences (`inventory_partition`, `Binv.set_part`)
-/

namespace Verif.SP
open Verif.Py

variable {L : Type} [DecidableEq L]

theorem inventoryLoop_ok (domain : List Int) (items : List (Int × L)) (hs : ∀ x l, (x, l) ∈ items → x ∈ domain) (hn : (items.map Prod.fst).Nodup) :
    ∃ q, inventoryLoop domain items = .ok q ∧ WF q ∧ q.domain = .finite domain ∧
      (∀ x y, x ≠ y → (q.pairInSameBlock x y = true ↔ ∃ l, (x, l) ∈ items ∧ (y, l) ∈ items)) ∧
      (∀ x l, q.getLabelFromElement x = some l ↔ (x, l) ∈ items) ∧
      (∀ l B, q.getBlockFromLabel l = some B ↔ B ≠ [] ∧ B.Pairwise (· < ·) ∧ ∀ x, x ∈ B ↔ (x, l) ∈ items) ∧
      (∀ l, l ∈ q.blockLabels.map Prod.snd ↔ ∃ x, (x, l) ∈ items) := by
  obtain ⟨q, q1, q2, _, q4, q5, q6, q7, q8, _⟩ := C44_label_all domain items hs hn (setTrivial (.finite domain) {}) rfl
  refine ⟨q, ?_, q2, q4, q5, q6, q7, q8⟩
  unfold inventoryLoop
  have : (newPart [] (.finite domain) : Except Err (SetPart L)) = .ok (setTrivial (.finite domain) {}) := rfl
  rw [this]
  simp only [bind, Except.bind, pure, Except.pure, q1]

omit [DecidableEq L] in
theorem mem_enumerate {entries : List L} {x : Int} {l : L} :
    (x, l) ∈ entries.zipIdx.map (fun p => ((p.2 : Int), p.1)) ↔ ∃ i : Nat, x = i ∧ entries[i]? = some l := by
  rw [List.mem_map]
  constructor
  · rintro ⟨⟨a, i⟩, h, e⟩
    rw [Prod.mk.injEq] at e
    obtain ⟨rfl, rfl⟩ := e
    exact ⟨i, rfl, List.mem_zipIdx_iff_getElem?.1 h⟩
  · rintro ⟨i, rfl, h⟩
    exact ⟨(l, i), List.mem_zipIdx_iff_getElem?.2 h, rfl⟩

/-- **C147.** For a list, `inventory_partition` is the partition of its places, in which two places are in the same block iff their entries are equal.
The block of an entry is the ascending list of its places, and the label of a place is its entry.  No exception is raised. -/
theorem C147_inventory_list (entries : List L) :
    ∃ q, inventoryPartition (.sequence entries) = .ok q ∧ WF q ∧
      (∃ d, q.domain = .finite d ∧ d.Pairwise (· ≤ ·) ∧ d.Nodup ∧ ∀ x : Int, x ∈ d ↔ 0 ≤ x ∧ x < entries.length) ∧
      (∀ i j : Nat, i ≠ j → i < entries.length → j < entries.length → (q.pairInSameBlock i j = true ↔ entries[i]? = entries[j]?)) ∧
      (∀ i : Nat, q.getLabelFromElement i = entries[i]?) ∧ (∀ x < 0, q.getLabelFromElement x = none) ∧
      (∀ l B, q.getBlockFromLabel l = some B ↔ l ∈ entries ∧ B = ((List.range entries.length).filter fun i => entries[i]? = some l).map fun (i : Nat) => (i : Int)) ∧
      ∀ l, l ∈ q.blockLabels.map Prod.snd ↔ l ∈ entries := by
  have hnd : ((entries.zipIdx.map fun p => ((p.2 : Int), p.1)).map Prod.fst).Nodup := by
    rw [List.map_map]
    have : (Prod.fst ∘ fun p : L × Nat => ((p.2 : Int), p.1)) = (fun (i : Nat) => (i : Int)) ∘ Prod.snd := rfl
    rw [this, ← List.map_map, List.zipIdx_map_snd]
    exact List.Nodup.map (fun _ _ h => by exact_mod_cast h) List.nodup_range'
  have hmem : ∀ x : Int, x ∈ sortZ ((List.range entries.length).map fun (i : Nat) => (i : Int)) ↔ 0 ≤ x ∧ x < entries.length := by
    intro x
    unfold sortZ
    rw [List.mem_insertionSort, List.mem_map]
    constructor
    · rintro ⟨i, hi, rfl⟩
      have := List.mem_range.1 hi
      omega
    · rintro ⟨h0, h1⟩
      exact ⟨x.toNat, List.mem_range.2 (by omega), by omega⟩
  obtain ⟨q, q1, q2, q3, q4, q5, q6, q7⟩ := inventoryLoop_ok (L := L) _ _ (fun x l h => by
    obtain ⟨i, rfl, hi⟩ := mem_enumerate.1 h
    have := (List.getElem?_eq_some_iff.1 hi).1
    exact (hmem _).2 (by omega)) hnd
  refine ⟨q, q1, q2, ⟨_, q3, List.pairwise_insertionSort _ _, ?_, hmem⟩, ?_, ?_, ?_, ?_, ?_⟩
  · exact (List.perm_insertionSort _ _).nodup_iff.2 (List.Nodup.map (fun _ _ h => by exact_mod_cast h) List.nodup_range)
  · intro i j hij hi hj
    rw [q4 _ _ (by exact_mod_cast hij)]
    simp only [mem_enumerate]
    constructor
    · rintro ⟨l, ⟨i', e1, h1⟩, j', e2, h2⟩
      have e1 : i = i' := by exact_mod_cast e1
      have e2 : j = j' := by exact_mod_cast e2
      subst e1 e2
      rw [h1, h2]
    · intro h
      exact ⟨entries[i], ⟨i, rfl, List.getElem?_eq_getElem hi⟩, j, rfl, h ▸ List.getElem?_eq_getElem hi⟩
  · intro i
    ext l
    rw [q5, mem_enumerate]
    constructor
    · rintro ⟨i', e, h⟩
      have e : i = i' := by exact_mod_cast e
      subst e
      exact h
    · intro h
      exact ⟨i, rfl, h⟩
  · intro x hx
    by_contra h
    obtain ⟨l, hl⟩ := Option.ne_none_iff_exists'.1 h
    obtain ⟨i, rfl, _⟩ := mem_enumerate.1 ((q5 x l).1 hl)
    omega
  · intro l B
    rw [q6]
    have hB : ∀ x : Int, x ∈ ((List.range entries.length).filter fun i => entries[i]? = some l).map (fun (i : Nat) => (i : Int)) ↔
        (x, l) ∈ entries.zipIdx.map (fun p => ((p.2 : Int), p.1)) := by
      intro x
      rw [mem_enumerate]
      simp only [List.mem_map, List.mem_filter, List.mem_range, decide_eq_true_eq]
      constructor
      · rintro ⟨i, ⟨_, h⟩, rfl⟩; exact ⟨i, rfl, h⟩
      · rintro ⟨i, rfl, h⟩; exact ⟨i, ⟨(List.getElem?_eq_some_iff.1 h).1, h⟩, rfl⟩
    have hasc : (((List.range entries.length).filter fun i => entries[i]? = some l).map (fun (i : Nat) => (i : Int))).Pairwise (· < ·) := by
      rw [List.pairwise_map]
      exact (List.pairwise_lt_range.filter _).imp fun h => by exact_mod_cast h
    constructor
    · rintro ⟨h1, h2, h3⟩
      obtain ⟨x, hx⟩ := List.exists_mem_of_ne_nil B h1
      obtain ⟨i, _, hi⟩ := mem_enumerate.1 ((h3 x).1 hx)
      refine ⟨List.mem_of_getElem? hi, eq_of_mem_iff h2 hasc fun y => ?_⟩
      rw [h3, hB]
    · rintro ⟨h1, rfl⟩
      obtain ⟨i, hi⟩ := List.mem_iff_getElem?.1 h1
      exact ⟨List.ne_nil_of_mem ((hB i).2 (mem_enumerate.2 ⟨i, rfl, hi⟩)), hasc, hB⟩
  · intro l
    rw [q7]
    simp only [mem_enumerate]
    rw [List.mem_iff_getElem?]
    exact ⟨fun ⟨_, i, _, h⟩ => ⟨i, h⟩, fun ⟨i, h⟩ => ⟨i, i, rfl, h⟩⟩

/-- **C147.** For a dict, `inventory_partition` is the partition of its keys, in which two keys are in the same block iff their values are equal.
For an argument of another type `ArgTypeError` is raised. -/
theorem C147_inventory_dict (items : Dict Int L) (hn : items.keys.Nodup) :
    (∃ q, inventoryPartition (.dict items) = .ok q ∧ WF q ∧
      (∃ d, q.domain = .finite d ∧ d.Pairwise (· ≤ ·) ∧ d.Perm items.keys) ∧
      (∀ x y, x ≠ y → (q.pairInSameBlock x y = true ↔ ∃ l, items.get? x = some l ∧ items.get? y = some l)) ∧
      (∀ x, q.getLabelFromElement x = items.get? x) ∧
      (∀ l B, q.getBlockFromLabel l = some B ↔ B ≠ [] ∧ B.Pairwise (· < ·) ∧ ∀ x, x ∈ B ↔ items.get? x = some l) ∧
      ∀ l, l ∈ q.blockLabels.map Prod.snd ↔ ∃ x, items.get? x = some l) ∧
    inventoryPartition (.other : InvArg L) = .error .argType := by
  refine ⟨?_, rfl⟩
  have hiff : ∀ (x : Int) (l : L), (x, l) ∈ items ↔ items.get? x = some l := fun x l => ⟨Dict.mem_get? hn, Dict.get?_mem⟩
  obtain ⟨q, q1, q2, q3, q4, q5, q6, q7⟩ := inventoryLoop_ok (L := L) (sortZ items.keys) items (fun x l h => by
    unfold sortZ
    rw [List.mem_insertionSort]
    exact List.mem_map.2 ⟨_, h, rfl⟩) hn
  refine ⟨q, q1, q2, ⟨_, q3, List.pairwise_insertionSort _ _, List.perm_insertionSort _ _⟩, ?_, ?_, ?_, ?_⟩
  · intro x y hxy
    rw [q4 x y hxy]
    simp only [hiff]
  · intro x
    ext l
    rw [q5, hiff]
  · intro l B
    rw [q6]
    simp only [hiff]
  · intro l
    rw [q7]
    simp only [hiff]

example : (inventoryPartition (.sequence ['a', 'b', 'a', 'c', 'b', 'a'])).map (fun p => (p.blocks, p.blockLabels)) =
    .ok ([[0, 2, 5], [1, 4]], [([3], 'c'), ([1, 4], 'b'), ([0, 2, 5], 'a')]) := by decide +kernel
example : (inventoryPartition (.dict [(7, 'x'), (-2, 'y'), (4, 'x')])).map (·.blocks) = .ok [[4, 7]] := by decide +kernel

/-! ## Binv -/

omit [DecidableEq L] in
/-- **C147.** The `set_part` of a `Binv` joins two places of it iff they have equal digits.  No exception is raised. -/
theorem C147_binv (b : BV.Binv) :
    ∃ p : SetPart L, setPartOfBinv b = .ok p ∧ WF p ∧ p.domain = .N ∧
      ∀ x y, x ≠ y → (p.pairInSameBlock x y = true ↔ ∃ i j : Nat, x = i ∧ y = j ∧ i < b.length ∧ j < b.length ∧ b.vector[i]? = b.vector[j]?) := by
  have hasc : ∀ l : List Nat, l.Pairwise (· < ·) → (l.map fun (i : Nat) => (i : Int)).Nodup := fun l hl =>
    List.Nodup.map (fun _ _ h => by exact_mod_cast h) (hl.imp fun h => Nat.ne_of_lt h)
  have h1 := hasc _ (BV.exposet_pairwise b)
  have h2 := hasc _ (List.pairwise_lt_range (n := b.length))
  obtain ⟨p, p1, p2, p3, _, p5⟩ := (C37_construction (L := L) [b.exposet.map fun (i : Nat) => (i : Int),
      ((List.range b.length).map fun (i : Nat) => (i : Int)).filter fun i => ! (b.exposet.map fun (i : Nat) => (i : Int)).contains i] .N).1 (by
    refine ⟨?_, List.Pairwise.filter _ (List.pairwise_pair.2 ?_)⟩
    · intro B hB _
      simp only [List.mem_cons, List.not_mem_nil, or_false] at hB
      rcases hB with rfl | rfl
      · exact h1
      · exact h2.filter _
    intro x hx hx'
    simp only [List.mem_filter, Bool.not_eq_true', List.contains_eq_mem, decide_eq_false_iff_not] at hx'
    exact hx'.2 hx)
  refine ⟨p, p1, p2, p3, fun x y hxy => ?_⟩
  rw [p5 x y hxy]
  have hT : ∀ x : Int, x ∈ b.exposet.map (fun (i : Nat) => (i : Int)) ↔ ∃ i : Nat, x = i ∧ b.vector[i]? = some true := by
    intro x
    simp only [List.mem_map, BV.mem_exposet]
    exact ⟨fun ⟨i, h, e⟩ => ⟨i, e.symm, h⟩, fun ⟨i, e, h⟩ => ⟨i, h, e.symm⟩⟩
  have hF : ∀ x : Int, x ∈ ((List.range b.length).map fun (i : Nat) => (i : Int)).filter (fun i => ! (b.exposet.map fun (i : Nat) => (i : Int)).contains i) ↔
      ∃ i : Nat, x = i ∧ b.vector[i]? = some false := by
    intro x
    rw [List.mem_filter]
    simp only [Bool.not_eq_true', List.contains_eq_mem, decide_eq_false_iff_not]
    rw [hT]
    simp only [List.mem_map, List.mem_range]
    constructor
    · rintro ⟨⟨i, hi, rfl⟩, h⟩
      have hi' : i < b.vector.length := hi
      refine ⟨i, rfl, ?_⟩
      rw [List.getElem?_eq_getElem hi']
      cases hv : b.vector[i]
      · rfl
      · exact absurd ⟨i, rfl, by rw [List.getElem?_eq_getElem hi', hv]⟩ h
    · rintro ⟨i, rfl, h⟩
      refine ⟨⟨i, (List.getElem?_eq_some_iff.1 h).1, rfl⟩, ?_⟩
      rintro ⟨j, e, h'⟩
      have e : i = j := by exact_mod_cast e
      subst e
      rw [h] at h'
      cases h'
  simp only [List.mem_cons, List.not_mem_nil, or_false, exists_eq_or_imp, exists_eq_left, hT, hF]
  constructor
  · rintro (⟨⟨i, rfl, hi⟩, j, rfl, hj⟩ | ⟨⟨i, rfl, hi⟩, j, rfl, hj⟩) <;>
      exact ⟨i, j, rfl, rfl, (List.getElem?_eq_some_iff.1 hi).1, (List.getElem?_eq_some_iff.1 hj).1, hi.trans hj.symm⟩
  · rintro ⟨i, j, rfl, rfl, hi, hj, h⟩
    have hi' : i < b.vector.length := hi
    rcases hv : b.vector[i] with _ | _
    · have e : b.vector[i]? = some false := by rw [List.getElem?_eq_getElem hi', hv]
      exact .inr ⟨⟨i, rfl, e⟩, j, rfl, h ▸ e⟩
    · have e : b.vector[i]? = some true := by rw [List.getElem?_eq_getElem hi', hv]
      exact .inl ⟨⟨i, rfl, e⟩, j, rfl, h ▸ e⟩

omit [DecidableEq L] in
/-- **C147.** Two `Binv`s of the same length have equal `set_part`s iff they are equal or complements. -/
theorem C147_binv_complement (b c : BV.Binv) (h : b.length = c.length) :
    ∃ p q : SetPart L, setPartOfBinv b = .ok p ∧ setPartOfBinv c = .ok q ∧ ∃ r, p.eq q = .ok r ∧ (r = true ↔ c = b ∨ b.complement = .ok c) := by
  obtain ⟨p, p1, p2, p3, p4⟩ := C147_binv (L := L) b
  obtain ⟨q, q1, q2, q3, q4⟩ := C147_binv (L := L) c
  refine ⟨p, q, p1, q1, ?_⟩
  obtain ⟨r, r1, r2⟩ := (C37_equality p q p2 q2).2 (by rw [p3, q3]; trivial)
  refine ⟨r, r1, r2.trans ?_⟩
  have hlb : b.vector.length = b.length := rfl
  have hlc : c.vector.length = b.length := h.symm
  rw [BV.complement_eq]
  constructor
  · intro hpq
    have key : ∀ i j : Nat, i < b.length → j < b.length → (b.vector[i]? = b.vector[j]? ↔ c.vector[i]? = c.vector[j]?) := by
      intro i j hi hj
      by_cases hij : i = j
      · subst hij; simp
      · have e := hpq i j (by exact_mod_cast hij)
        rw [Bool.eq_iff_iff, p4 _ _ (by exact_mod_cast hij), q4 _ _ (by exact_mod_cast hij)] at e
        constructor
        · intro hb
          obtain ⟨i', j', e1, e2, _, _, h3⟩ := e.1 ⟨i, j, rfl, rfl, hi, hj, hb⟩
          have e1 : i = i' := by exact_mod_cast e1
          have e2 : j = j' := by exact_mod_cast e2
          subst e1 e2
          exact h3
        · intro hc
          obtain ⟨i', j', e1, e2, _, _, h3⟩ := e.2 ⟨i, j, rfl, rfl, h ▸ hi, h ▸ hj, hc⟩
          have e1 : i = i' := by exact_mod_cast e1
          have e2 : j = j' := by exact_mod_cast e2
          subst e1 e2
          exact h3
    rcases Nat.eq_zero_or_pos b.length with h0 | h0
    · left
      have e1 : b.vector = [] := List.eq_nil_of_length_eq_zero (hlb.trans h0)
      have e2 : c.vector = [] := List.eq_nil_of_length_eq_zero (hlc.trans h0)
      cases b; cases c
      simp_all
    · have get : ∀ (d : BV.Binv), d.vector.length = b.length → ∀ i, (hi : i < b.length) → ∃ v, d.vector[i]? = some v := fun d hd i hi =>
        ⟨d.vector[i]'(by omega), List.getElem?_eq_getElem (by omega)⟩
      obtain ⟨b0, hb0⟩ := get b hlb 0 h0
      obtain ⟨c0, hc0⟩ := get c hlc 0 h0
      by_cases h00 : c0 = b0
      · left
        have : c.vector = b.vector := by
          refine List.ext_getElem? fun i => ?_
          by_cases hi : i < b.length
          · obtain ⟨bi, hbi⟩ := get b hlb i hi
            obtain ⟨ci, hci⟩ := get c hlc i hi
            have := key i 0 hi h0
            rw [hb0, hc0, hbi, hci] at this
            rw [hbi, hci]
            subst h00
            simp only [Option.some.injEq] at this ⊢
            revert this
            cases bi <;> cases ci <;> cases c0 <;> simp
          · rw [List.getElem?_eq_none (by omega), List.getElem?_eq_none (by omega)]
        cases b; cases c
        simpa using this
      · right
        have : b.vector.map (!·) = c.vector := by
          refine List.ext_getElem? fun i => ?_
          rw [List.getElem?_map]
          by_cases hi : i < b.length
          · obtain ⟨bi, hbi⟩ := get b hlb i hi
            obtain ⟨ci, hci⟩ := get c hlc i hi
            have := key i 0 hi h0
            rw [hb0, hc0, hbi, hci] at this
            rw [hbi, hci]
            simp only [Option.some.injEq, Option.map_some] at this ⊢
            revert this h00
            cases bi <;> cases ci <;> cases c0 <;> cases b0 <;> simp
          · rw [List.getElem?_eq_none (by omega), List.getElem?_eq_none (by omega)]
            rfl
        rw [this]
  · rintro (rfl | hc) x y hxy
    · rw [p1] at q1
      cases q1
      rfl
    · have hc := Except.ok.inj hc
      have hv : c.vector = b.vector.map (!·) := by rw [← hc]
      rw [Bool.eq_iff_iff, p4 x y hxy, q4 x y hxy, ← h]
      refine exists_congr fun i => exists_congr fun j => ?_
      refine and_congr_right fun _ => and_congr_right fun _ => and_congr_right fun hi => and_congr_right fun hj => ?_
      rw [hv, List.getElem?_map, List.getElem?_map]
      rw [List.getElem?_eq_getElem (show i < b.vector.length from hi), List.getElem?_eq_getElem (show j < b.vector.length from hj)]
      cases b.vector[i] <;> cases b.vector[j] <;> simp

example : (setPartOfBinv (L := Nat) ⟨[true, false, true, true, false]⟩).map (·.blocks) = .ok [[0, 2, 3], [1, 4]] := by decide +kernel

end Verif.SP
