import Mathlib.Tactic.Common
import Mathlib.Data.List.Pairwise
import Verif.Py.Lemmas
import Verif.SetPart.Model

/-!
# Canonical block lists, the invariant of `SetPart` objects, and the constructor
-/

namespace Verif.SP
open Verif.Py

variable {L : Type}

theorem sortZ_perm (l : List Int) : (sortZ l).Perm l := List.perm_insertionSort _ l

theorem mem_sortZ {l : List Int} {a : Int} : a ∈ sortZ l ↔ a ∈ l := (sortZ_perm l).mem_iff

theorem length_sortZ (l : List Int) : (sortZ l).length = l.length := (sortZ_perm l).length_eq

theorem sortZ_le (l : List Int) : (sortZ l).Pairwise (· ≤ ·) := List.pairwise_insertionSort _ l

theorem sortZ_lt {l : List Int} (h : l.Nodup) : (sortZ l).Pairwise (· < ·) := by
  have h1 := sortZ_le l
  have h2 : (sortZ l).Nodup := (sortZ_perm l).nodup_iff.2 h
  exact (h1.and h2).imp (fun ⟨a, b⟩ => lt_of_le_of_ne a b)

theorem nodup_of_lt {l : List Int} (h : l.Pairwise (· < ·)) : l.Nodup := h.imp (fun h => ne_of_lt h)

theorem sortZ_of_lt {l : List Int} (h : l.Pairwise (· < ·)) : sortZ l = l :=
  (sortZ_perm l).eq_of_pairwise (fun _ _ _ _ h1 h2 => le_antisymm h1 h2) (sortZ_le l) (h.imp le_of_lt)

/-- Strictly ascending lists with the same members are equal. -/
theorem eq_of_mem_iff {l m : List Int} (hl : l.Pairwise (· < ·)) (hm : m.Pairwise (· < ·)) (h : ∀ a, a ∈ l ↔ a ∈ m) :
    l = m :=
  ((List.perm_ext_iff_of_nodup (nodup_of_lt hl) (nodup_of_lt hm)).2 h).eq_of_pairwise
    (fun _ _ _ _ h1 h2 => le_antisymm h1 h2) (hl.imp le_of_lt) (hm.imp le_of_lt)

theorem sortL_perm (l : List (List Int)) : (sortL l).Perm l := List.perm_insertionSort _ l

theorem mem_sortL {l : List (List Int)} {a : List Int} : a ∈ sortL l ↔ a ∈ l := (sortL_perm l).mem_iff

theorem sortL_le (l : List (List Int)) : (sortL l).Pairwise (· ≤ ·) := List.pairwise_insertionSort _ l

theorem sortL_of_le {l : List (List Int)} (h : l.Pairwise (· ≤ ·)) : sortL l = l :=
  (sortL_perm l).eq_of_pairwise (fun _ _ _ _ h1 h2 => le_antisymm h1 h2) (sortL_le l) h

theorem mem_pySet {α : Type} [DecidableEq α] {l : List α} {a : α} : a ∈ pySet l ↔ a ∈ l := List.mem_dedup

theorem nodup_pySet {α : Type} [DecidableEq α] (l : List α) : (pySet l).Nodup := List.nodup_dedup l

/-! ### canonical block lists -/

/-- `a` and `b` are in the same block of the list. -/
def Joined (bs : List (List Int)) (a b : Int) : Prop := ∃ B ∈ bs, a ∈ B ∧ b ∈ B

/-- What `__init__` establishes for `blocks`. -/
structure Canon (bs : List (List Int)) : Prop where
  sorted : bs.Pairwise (· ≤ ·)
  lt : ∀ B ∈ bs, B.Pairwise (· < ·)
  two : ∀ B ∈ bs, 1 < B.length
  nodup : bs.flatten.Nodup

theorem mem_cleanBlocks {raw : List (List Int)} {B : List Int} :
    B ∈ cleanBlocks raw ↔ ∃ C ∈ raw, 1 < C.length ∧ B = sortZ C := by
  unfold cleanBlocks
  rw [mem_sortL, List.mem_map]
  constructor
  · rintro ⟨C, hC, rfl⟩
    obtain ⟨h1, h2⟩ := List.mem_filter.1 hC
    exact ⟨C, h1, by simpa using h2, rfl⟩
  · rintro ⟨C, h1, h2, rfl⟩
    exact ⟨C, List.mem_filter.2 ⟨h1, by simpa using h2⟩, rfl⟩

theorem flatten_map_sortZ (l : List (List Int)) : (l.map sortZ).flatten.Perm l.flatten := by
  induction l with
  | nil => exact List.Perm.refl _
  | cons B l ih =>
    simp only [List.map_cons, List.flatten_cons]
    exact (sortZ_perm B).append ih

theorem flatten_cleanBlocks (raw : List (List Int)) :
    (cleanBlocks raw).flatten.Perm (raw.filter (fun B => decide (B.length > 1))).flatten :=
  (sortL_perm _).flatten.trans (flatten_map_sortZ _)

theorem canon_cleanBlocks {raw : List (List Int)} (h : (cleanBlocks raw).flatten.Nodup) : Canon (cleanBlocks raw) where
  sorted := sortL_le _
  lt := by
    intro B hB
    have h1 : B.Nodup := (List.nodup_flatten.1 h).1 B hB
    obtain ⟨C, _, _, rfl⟩ := mem_cleanBlocks.1 hB
    exact sortZ_lt ((sortZ_perm C).nodup_iff.1 h1)
  two := by
    intro B hB
    obtain ⟨C, _, h2, rfl⟩ := mem_cleanBlocks.1 hB
    rwa [length_sortZ]
  nodup := h

theorem cleanBlocks_of_canon {bs : List (List Int)} (h : Canon bs) : cleanBlocks bs = bs := by
  unfold cleanBlocks
  rw [List.filter_eq_self.2 (by intro B hB; simpa using h.two B hB)]
  rw [List.map_congr_left (g := id) (by intro B hB; exact sortZ_of_lt (h.lt B hB)), List.map_id, sortL_of_le h.sorted]

theorem joined_cleanBlocks {raw : List (List Int)} {a b : Int} (hab : a ≠ b) :
    Joined (cleanBlocks raw) a b ↔ Joined raw a b := by
  constructor
  · rintro ⟨B, hB, ha, hb⟩
    obtain ⟨C, h1, _, rfl⟩ := mem_cleanBlocks.1 hB
    exact ⟨C, h1, mem_sortZ.1 ha, mem_sortZ.1 hb⟩
  · rintro ⟨C, hC, ha, hb⟩
    refine ⟨sortZ C, mem_cleanBlocks.2 ⟨C, hC, ?_, rfl⟩, mem_sortZ.2 ha, mem_sortZ.2 hb⟩
    match C, ha, hb with
    | [x], ha, hb => simp only [List.mem_singleton] at ha hb; exact absurd (ha.trans hb.symm) hab
    | x :: y :: l, _, _ => simp

theorem Canon.unique {bs : List (List Int)} (h : Canon bs) {B C : List Int} (hB : B ∈ bs) (hC : C ∈ bs) {a : Int}
    (ha : a ∈ B) (ha' : a ∈ C) : B = C := by
  by_contra hne
  have h1 := (List.nodup_flatten.1 h.nodup).2
  have h2 : ∀ x ∈ bs, ∀ y ∈ bs, x ≠ y → List.Disjoint x y := by
    intro x hx y hy hxy
    have : Std.Symm (List.Disjoint (α := Int)) := ⟨fun _ _ h => List.Disjoint.symm h⟩
    exact List.Pairwise.forall h1 hx hy hxy
  exact h2 B hB C hC hne ha ha'

theorem Canon.ne_nil {bs : List (List Int)} (h : Canon bs) {B : List Int} (hB : B ∈ bs) : B ≠ [] := by
  rintro rfl
  have := h.two [] hB
  simp at this

theorem Canon.nodup_blocks {bs : List (List Int)} (h : Canon bs) : bs.Nodup := by
  have h1 := (List.nodup_flatten.1 h.nodup).2
  rw [List.nodup_iff_pairwise_ne]
  refine List.Pairwise.imp_of_mem ?_ h1
  intro B C hB _ hd hBC
  subst hBC
  obtain ⟨a, ha⟩ := List.exists_mem_of_ne_nil _ (h.ne_nil hB)
  exact hd ha ha

theorem Canon.symm {bs : List (List Int)} {a b : Int} (h : Joined bs a b) : Joined bs b a := by
  obtain ⟨B, hB, ha, hb⟩ := h
  exact ⟨B, hB, hb, ha⟩

theorem Canon.trans {bs : List (List Int)} (h : Canon bs) {a b c : Int} (h1 : Joined bs a b) (h2 : Joined bs b c) :
    Joined bs a c := by
  obtain ⟨B, hB, ha, hb⟩ := h1
  obtain ⟨C, hC, hb', hc⟩ := h2
  have := h.unique hB hC hb hb'
  subst this
  exact ⟨B, hB, ha, hc⟩

/-- every element of a block has a partner -/
theorem Canon.partner {bs : List (List Int)} (h : Canon bs) {B : List Int} (hB : B ∈ bs) (a : Int) :
    ∃ b ∈ B, b ≠ a := by
  have h1 := h.two B hB
  have h2 := nodup_of_lt (h.lt B hB)
  match B, h1, h2 with
  | x :: y :: l, _, h2 =>
    by_cases hx : x = a
    · refine ⟨y, by simp, ?_⟩
      rintro rfl
      simp [hx] at h2
    · exact ⟨x, by simp, hx⟩

/-- Canonical block lists are determined by which different elements they join. -/
theorem Canon.ext {bs cs : List (List Int)} (hb : Canon bs) (hc : Canon cs)
    (h : ∀ a b, a ≠ b → (Joined bs a b ↔ Joined cs a b)) : bs = cs := by
  have key : ∀ {bs cs : List (List Int)}, Canon bs → Canon cs → (∀ a b, a ≠ b → (Joined bs a b ↔ Joined cs a b)) →
      ∀ B ∈ bs, B ∈ cs := by
    intro bs cs hb hc h B hB
    obtain ⟨a, ha⟩ := List.exists_mem_of_ne_nil _ (hb.ne_nil hB)
    obtain ⟨b, hbB, hba⟩ := hb.partner hB a
    obtain ⟨C, hC, haC, hbC⟩ := (h a b (Ne.symm hba)).1 ⟨B, hB, ha, hbB⟩
    have : B = C := by
      apply eq_of_mem_iff (hb.lt B hB) (hc.lt C hC)
      intro x
      by_cases hx : x = a
      · subst hx; exact ⟨fun _ => haC, fun _ => ha⟩
      · constructor
        · intro hxB
          obtain ⟨D, hD, haD, hxD⟩ := (h a x (Ne.symm hx)).1 ⟨B, hB, ha, hxB⟩
          rwa [hc.unique hC hD haC haD]
        · intro hxC
          obtain ⟨D, hD, haD, hxD⟩ := (h a x (Ne.symm hx)).2 ⟨C, hC, haC, hxC⟩
          rwa [hb.unique hB hD ha haD]
    rwa [this]
  have hp : bs.Perm cs := (List.perm_ext_iff_of_nodup hb.nodup_blocks hc.nodup_blocks).2
    (fun B => ⟨key hb hc h B, key hc hb (fun a b hab => (h a b hab).symm) B⟩)
  exact hp.eq_of_pairwise (fun _ _ _ _ h1 h2 => le_antisymm h1 h2) hb.sorted hc.sorted

/-! ### the index dictionary -/

def indexItems (bs : List (List Int)) (k : Nat) : List (Int × Nat) :=
  (bs.zipIdx k).flatMap (fun p => p.1.map (fun element => (element, p.2)))

theorem keys_indexItems (bs : List (List Int)) (k : Nat) : Dict.keys (indexItems bs k) = bs.flatten := by
  induction bs generalizing k with
  | nil => rfl
  | cons B bs ih =>
    have := ih (k + 1)
    unfold indexItems Dict.keys at *
    simp only [List.zipIdx_cons, List.flatMap_cons, List.map_append, List.map_map, List.flatten_cons]
    rw [this]
    congr 1
    rw [show (Prod.fst ∘ fun element => (element, k)) = (id : Int → Int) from rfl, List.map_id]

theorem mem_indexItems {bs : List (List Int)} {k : Nat} {a : Int} {i : Nat} :
    (a, i) ∈ indexItems bs k ↔ k ≤ i ∧ ∃ B, bs[i - k]? = some B ∧ a ∈ B := by
  unfold indexItems
  rw [List.mem_flatMap]
  constructor
  · rintro ⟨⟨B, j⟩, hB, h⟩
    rw [List.mk_mem_zipIdx_iff_le_and_getElem?_sub] at hB
    obtain ⟨x, hx, hxe⟩ := List.mem_map.1 h
    cases hxe
    exact ⟨hB.1, B, hB.2, hx⟩
  · rintro ⟨h1, B, h2, h3⟩
    exact ⟨(B, i), by rw [List.mk_mem_zipIdx_iff_le_and_getElem?_sub]; exact ⟨h1, h2⟩, List.mem_map.2 ⟨a, h3, rfl⟩⟩

theorem mem_keys_ofPairs {α β : Type} [DecidableEq α] (l : List (α × β)) (a : α) :
    a ∈ Dict.keys (Dict.ofPairs l) ↔ a ∈ Dict.keys l := by
  have h1 := Dict.get?_ofPairs l a
  have h2 : (Dict.get? (Dict.ofPairs l) a).isSome ↔ (Dict.get? l.reverse a).isSome := by rw [h1]
  rw [Dict.get?_isSome, Dict.get?_isSome] at h2
  rw [h2]
  unfold Dict.keys
  rw [List.map_reverse, List.mem_reverse]

theorem length_keys_ofPairs {α β : Type} [DecidableEq α] (l : List (α × β)) :
    (Dict.keys (Dict.ofPairs l)).length = l.length ↔ (Dict.keys l).Nodup := by
  constructor
  · intro h
    have h1 : (Dict.keys (Dict.ofPairs l)).Subperm (Dict.keys l) :=
      List.subperm_of_subset (Dict.ofPairs_nodup l) (fun a ha => (mem_keys_ofPairs l a).1 ha)
    have h2 := h1.perm_of_length_le (by rw [h, Dict.length_keys])
    exact h2.nodup_iff.1 (Dict.ofPairs_nodup l)
  · intro h
    rw [Dict.ofPairs_of_nodup h, Dict.length_keys]

theorem mem_keys_blockIndex {bs : List (List Int)} {a : Int} : a ∈ (blockIndex bs).keys ↔ a ∈ bs.flatten := by
  unfold blockIndex
  rw [mem_keys_ofPairs]
  exact Eq.to_iff (congrArg (a ∈ ·) (keys_indexItems bs 0))

theorem nodup_keys_blockIndex (bs : List (List Int)) : (blockIndex bs).keys.Nodup := Dict.ofPairs_nodup _

theorem length_keys_blockIndex {bs : List (List Int)} :
    (blockIndex bs).keys.length = (bs.map List.length).sum ↔ bs.flatten.Nodup := by
  have h1 : (indexItems bs 0).length = (bs.map List.length).sum := by
    rw [← Dict.length_keys, keys_indexItems, List.length_flatten]
  rw [← h1, ← keys_indexItems bs 0]
  exact length_keys_ofPairs _

theorem blockIndex_get {bs : List (List Int)} (h : bs.flatten.Nodup) {a : Int} {i : Nat} :
    (blockIndex bs).get? a = some i ↔ ∃ B, bs[i]? = some B ∧ a ∈ B := by
  have h1 : blockIndex bs = indexItems bs 0 := Dict.ofPairs_of_nodup (by
    have := keys_indexItems bs 0
    unfold indexItems at this
    rw [this]; exact h)
  rw [h1, Dict.get?_iff_mem (by rw [keys_indexItems]; exact h), mem_indexItems]
  simp

/-! ### the invariant -/

/-- The attributes of a `SetPart` object fit together. -/
structure WF (p : SetPart L) : Prop where
  canon : Canon p.blocks
  index : p.nonSingletonToBlockIndex = blockIndex p.blocks
  ns : p.nonSingletons = (blockIndex p.blocks).keys
  len : p.length = if p.domain = .N then some (if p.blocks = [] then 0 else maxZ p.nonSingletons + 1) else none
  triv : p.trivial = decide (p.blocks = [])

theorem wf_setTrivial (d : Domain) (c : Cache) : WF (setTrivial d c : SetPart L) where
  canon := ⟨List.Pairwise.nil, by simp [setTrivial], by simp [setTrivial], by simp [setTrivial]⟩
  index := rfl
  ns := rfl
  len := by simp [setTrivial]
  triv := rfl

theorem init_ok {raw : List (List Int)} {d : Domain} {l : Dict (List Int) L} {c : Cache}
    (h : (raw.filter (fun B => decide (B.length > 1))).flatten.Nodup) :
    ∃ p, init raw d l c = .ok p ∧ WF p ∧ p.blocks = cleanBlocks raw ∧ p.domain = d ∧
      p.blockLabels = (if cleanBlocks raw = [] then [] else l) ∧ p.cache = { c with aliased := false } := by
  unfold init
  simp only
  by_cases h0 : cleanBlocks raw = []
  · rw [if_pos h0]
    exact ⟨_, rfl, wf_setTrivial _ _, by rw [h0]; rfl, rfl, by simp [h0, setTrivial], rfl⟩
  · rw [if_neg h0]
    have h1 := (flatten_cleanBlocks raw).nodup_iff.2 h
    refine ⟨_, if_pos (length_keys_blockIndex.2 h1), ⟨canon_cleanBlocks h1, rfl, rfl, ?_, ?_⟩, rfl, rfl, by simp [h0, setBlocks], rfl⟩
    · simp [setBlocks, h0]
    · simp [setBlocks, h0]

theorem init_error {raw : List (List Int)} {d : Domain} {l : Dict (List Int) L} {c : Cache}
    (h : ¬ (raw.filter (fun B => decide (B.length > 1))).flatten.Nodup) :
    init raw d l c = .error .duplicateElements := by
  have h1 : ¬ (cleanBlocks raw).flatten.Nodup := fun h1 => h ((flatten_cleanBlocks raw).nodup_iff.1 h1)
  unfold init
  simp only
  rw [if_neg (by intro h0; apply h1; rw [h0]; simp), if_neg (by intro h2; exact h1 (length_keys_blockIndex.1 h2))]

theorem WF.mem_ns {p : SetPart L} (h : WF p) {a : Int} : a ∈ p.nonSingletons ↔ ∃ B ∈ p.blocks, a ∈ B := by
  rw [h.ns, mem_keys_blockIndex, List.mem_flatten]

theorem WF.get {p : SetPart L} (h : WF p) {a : Int} {i : Nat} :
    p.nonSingletonToBlockIndex.get? a = some i ↔ ∃ B, p.blocks[i]? = some B ∧ a ∈ B := by
  rw [h.index]; exact blockIndex_get h.canon.nodup

theorem WF.get_of_mem {p : SetPart L} (h : WF p) {a : Int} {B : List Int} (hB : B ∈ p.blocks) (ha : a ∈ B) :
    ∃ i, p.nonSingletonToBlockIndex.get? a = some i ∧ p.blocks[i]? = some B := by
  obtain ⟨i, hi⟩ := List.getElem?_of_mem hB
  exact ⟨i, h.get.2 ⟨B, hi, ha⟩, hi⟩

theorem WF.pairInSameBlock {p : SetPart L} (h : WF p) (a b : Int) :
    p.pairInSameBlock a b = true ↔ Joined p.blocks a b := by
  unfold SetPart.pairInSameBlock
  by_cases ha : a ∈ p.nonSingletons
  · by_cases hb : b ∈ p.nonSingletons
    · rw [if_neg (by simp [ha, hb]), decide_eq_true_iff]
      obtain ⟨A, hA, haA⟩ := h.mem_ns.1 ha
      obtain ⟨B, hB, hbB⟩ := h.mem_ns.1 hb
      obtain ⟨i, hi, hi'⟩ := h.get_of_mem hA haA
      obtain ⟨j, hj, hj'⟩ := h.get_of_mem hB hbB
      rw [hi, hj]
      constructor
      · intro hij
        cases hij
        rw [hi'] at hj'; cases hj'
        exact ⟨A, hA, haA, hbB⟩
      · rintro ⟨C, hC, haC, hbC⟩
        obtain ⟨k, hk, _⟩ := h.get_of_mem hC haC
        obtain ⟨k', hk', hk''⟩ := h.get_of_mem hC hbC
        rw [hi] at hk
        cases hk
        rw [h.canon.unique hC hA haC haA] at hk''
        have h3 : p.nonSingletonToBlockIndex.get? a = some k' := h.get.2 ⟨A, hk'', haA⟩
        rw [← hi, ← hj, h3, hk']
    · rw [if_pos (by simp [hb])]
      simp only [Bool.false_eq_true, false_iff]
      rintro ⟨C, hC, _, hbC⟩
      exact hb (h.mem_ns.2 ⟨C, hC, hbC⟩)
  · rw [if_pos (by simp [ha])]
    simp only [Bool.false_eq_true, false_iff]
    rintro ⟨C, hC, haC, _⟩
    exact ha (h.mem_ns.2 ⟨C, hC, haC⟩)

theorem WF.elementToBlock_of_mem {p : SetPart L} (h : WF p) {a : Int} {B : List Int} (hB : B ∈ p.blocks) (ha : a ∈ B) :
    p.elementToBlock a = B := by
  unfold SetPart.elementToBlock
  rw [if_pos (by simpa using h.mem_ns.2 ⟨B, hB, ha⟩)]
  obtain ⟨i, hi, hi'⟩ := h.get_of_mem hB ha
  rw [hi]
  simp [hi']

theorem WF.elementToBlock_of_not_mem {p : SetPart L} {a : Int} (ha : a ∉ p.nonSingletons) :
    p.elementToBlock a = [a] := by
  unfold SetPart.elementToBlock
  rw [if_neg (by simpa using ha)]

/-- The block of an element, singleton or not. -/
theorem WF.mem_elementToBlock {p : SetPart L} (h : WF p) (a x : Int) :
    x ∈ p.elementToBlock a ↔ x = a ∨ Joined p.blocks a x := by
  by_cases ha : a ∈ p.nonSingletons
  · obtain ⟨B, hB, haB⟩ := h.mem_ns.1 ha
    rw [h.elementToBlock_of_mem hB haB]
    constructor
    · intro hx; exact Or.inr ⟨B, hB, haB, hx⟩
    · rintro (rfl | ⟨C, hC, haC, hxC⟩)
      · exact haB
      · rwa [h.canon.unique hB hC haB haC]
  · rw [WF.elementToBlock_of_not_mem ha, List.mem_singleton]
    constructor
    · exact Or.inl
    · rintro (rfl | ⟨C, hC, haC, _⟩)
      · rfl
      · exact absurd (h.mem_ns.2 ⟨C, hC, haC⟩) ha

theorem WF.elementToBlock_lt {p : SetPart L} (h : WF p) (a : Int) : (p.elementToBlock a).Pairwise (· < ·) := by
  by_cases ha : a ∈ p.nonSingletons
  · obtain ⟨B, hB, haB⟩ := h.mem_ns.1 ha
    rw [h.elementToBlock_of_mem hB haB]
    exact h.canon.lt B hB
  · rw [WF.elementToBlock_of_not_mem ha]
    exact List.pairwise_singleton _ _

theorem WF.elementToBlock_eq {p : SetPart L} (h : WF p) (a b : Int) :
    p.elementToBlock a = p.elementToBlock b ↔ a = b ∨ Joined p.blocks a b := by
  constructor
  · intro he
    have : b ∈ p.elementToBlock a := by rw [he, h.mem_elementToBlock]; exact Or.inl rfl
    rw [h.mem_elementToBlock] at this
    exact this.imp_left Eq.symm
  · rintro (rfl | ⟨B, hB, ha, hb⟩)
    · rfl
    · rw [h.elementToBlock_of_mem hB ha, h.elementToBlock_of_mem hB hb]

end Verif.SP
