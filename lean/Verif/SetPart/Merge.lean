import Verif.SetPart.Basic

/-!
# Lemmas about `merge_pair`
-/

namespace Verif.SP
open Verif.Py

variable {L : Type}

/-- same block, or same element -/
def Eqv (bs : List (List Int)) (a b : Int) : Prop := a = b ∨ Joined bs a b

theorem Eqv.symm {bs : List (List Int)} {a b : Int} (h : Eqv bs a b) : Eqv bs b a :=
  h.imp Eq.symm Canon.symm

theorem Eqv.trans {bs : List (List Int)} (hb : Canon bs) {a b c : Int} (h : Eqv bs a b) (h' : Eqv bs b c) : Eqv bs a c := by
  rcases h with rfl | h
  · exact h'
  · rcases h' with rfl | h'
    · exact Or.inr h
    · exact Or.inr (hb.trans h h')

theorem Eqv.equivalence {bs : List (List Int)} (hb : Canon bs) : Equivalence (Eqv bs) :=
  ⟨fun _ => Or.inl rfl, Eqv.symm, Eqv.trans hb⟩

/-- What merging `a` and `b` should do to an equivalence relation `r`. -/
def MergeRel (r : Int → Int → Prop) (a b : Int) (x y : Int) : Prop := r x y ∨ (r x a ∧ r b y) ∨ (r x b ∧ r a y)

theorem eqv_of_mem {bs : List (List Int)} {B : List Int} (hB : B ∈ bs) {a b : Int} (ha : a ∈ B) (hb : b ∈ B) : Eqv bs a b :=
  Or.inr ⟨B, hB, ha, hb⟩

theorem mem_of_eqv {bs : List (List Int)} (h : Canon bs) {B : List Int} (hB : B ∈ bs) {a b : Int} (ha : a ∈ B)
    (hab : Eqv bs a b) : b ∈ B := by
  rcases hab with rfl | ⟨C, hC, ha', hb⟩
  · exact ha
  · rwa [h.unique hB hC ha ha']

theorem eqv_merge {bs raw : List (List Int)} (h : Canon bs) {a b : Int} {M : List Int}
    (hraw : ∀ C, C ∈ raw ↔ (C ∈ bs ∧ a ∉ C ∧ b ∉ C) ∨ C = M) (hM : ∀ x, x ∈ M ↔ Eqv bs x a ∨ Eqv bs x b) (x y : Int) :
    Eqv raw x y ↔ MergeRel (Eqv bs) a b x y := by
  constructor
  · rintro (rfl | ⟨C, hC, hx, hy⟩)
    · exact Or.inl (Or.inl rfl)
    · rcases (hraw C).1 hC with ⟨hC', _, _⟩ | rfl
      · exact Or.inl (eqv_of_mem hC' hx hy)
      · rw [hM] at hx hy
        rcases hx with hx | hx <;> rcases hy with hy | hy
        · exact Or.inl (hx.trans h hy.symm)
        · exact Or.inr (Or.inl ⟨hx, hy.symm⟩)
        · exact Or.inr (Or.inr ⟨hx, hy.symm⟩)
        · exact Or.inl (hx.trans h hy.symm)
  · have hMm : M ∈ raw := (hraw M).2 (Or.inr rfl)
    rintro ((rfl | ⟨C, hC, hx, hy⟩) | ⟨h1, h2⟩ | ⟨h1, h2⟩)
    · exact Or.inl rfl
    · by_cases ha : a ∈ C
      · exact eqv_of_mem hMm ((hM x).2 (Or.inl (eqv_of_mem hC hx ha))) ((hM y).2 (Or.inl (eqv_of_mem hC hy ha)))
      · by_cases hb : b ∈ C
        · exact eqv_of_mem hMm ((hM x).2 (Or.inr (eqv_of_mem hC hx hb))) ((hM y).2 (Or.inr (eqv_of_mem hC hy hb)))
        · exact eqv_of_mem ((hraw C).2 (Or.inl ⟨hC, ha, hb⟩)) hx hy
    · exact eqv_of_mem hMm ((hM x).2 (Or.inl h1)) ((hM y).2 (Or.inr h2.symm))
    · exact eqv_of_mem hMm ((hM x).2 (Or.inr h1)) ((hM y).2 (Or.inl h2.symm))

/-- For an equivalence relation, merging a pair is the equivalence closure. -/
theorem mergeRel_iff {r : Int → Int → Prop} (hr : Equivalence r) (a b x y : Int) :
    MergeRel r a b x y ↔ Relation.EqvGen (fun u v => r u v ∨ (u = a ∧ v = b)) x y := by
  constructor
  · have hab : Relation.EqvGen (fun u v => r u v ∨ (u = a ∧ v = b)) a b := .rel _ _ (Or.inr ⟨rfl, rfl⟩)
    have hg : ∀ {u v}, r u v → Relation.EqvGen (fun u v => r u v ∨ (u = a ∧ v = b)) u v := fun h => .rel _ _ (Or.inl h)
    rintro (h | ⟨h1, h2⟩ | ⟨h1, h2⟩)
    · exact hg h
    · exact (hg h1).trans _ _ _ (hab.trans _ _ _ (hg h2))
    · exact (hg h1).trans _ _ _ ((hab.symm _ _).trans _ _ _ (hg h2))
  · intro h
    induction h with
    | rel u v h =>
      rcases h with h | ⟨rfl, rfl⟩
      · exact Or.inl h
      · exact Or.inr (Or.inl ⟨hr.refl _, hr.refl _⟩)
    | refl u => exact Or.inl (hr.refl u)
    | symm u v _ ih =>
      rcases ih with h | ⟨h1, h2⟩ | ⟨h1, h2⟩
      · exact Or.inl (hr.symm h)
      · exact Or.inr (Or.inr ⟨hr.symm h2, hr.symm h1⟩)
      · exact Or.inr (Or.inl ⟨hr.symm h2, hr.symm h1⟩)
    | trans u v w _ _ ih1 ih2 =>
      rcases ih1 with h | ⟨h1, h2⟩ | ⟨h1, h2⟩ <;> rcases ih2 with k | ⟨k1, k2⟩ | ⟨k1, k2⟩
      · exact Or.inl (hr.trans h k)
      · exact Or.inr (Or.inl ⟨hr.trans h k1, k2⟩)
      · exact Or.inr (Or.inr ⟨hr.trans h k1, k2⟩)
      · exact Or.inr (Or.inl ⟨h1, hr.trans h2 k⟩)
      · exact Or.inr (Or.inl ⟨h1, k2⟩)
      · exact Or.inl (hr.trans h1 k2)
      · exact Or.inr (Or.inr ⟨h1, hr.trans h2 k⟩)
      · exact Or.inl (hr.trans h1 k2)
      · exact Or.inr (Or.inr ⟨h1, k2⟩)

/-! ### the three ways of changing the blocks -/

theorem eqv_cleanBlocks {raw : List (List Int)} (x y : Int) : Eqv (cleanBlocks raw) x y ↔ Eqv raw x y := by
  by_cases h : x = y
  · exact ⟨fun _ => Or.inl h, fun _ => Or.inl h⟩
  · unfold Eqv; rw [joined_cleanBlocks h]

theorem nodup_filter_flatten {raw : List (List Int)} (h : raw.flatten.Nodup) (f : List Int → Bool) :
    (raw.filter f).flatten.Nodup := by
  rw [List.nodup_flatten] at h ⊢
  exact ⟨fun B hB => h.1 B (List.mem_of_mem_filter hB), h.2.sublist List.filter_sublist⟩

theorem raw_both {bs : List (List Int)} (h : Canon bs) {A B : List Int} {a b : Int} (hA : A ∈ bs) (hB : B ∈ bs)
    (ha : a ∈ A) (hb : b ∈ B) (hne : A ≠ B) :
    ((bs.erase A).erase B ++ [sortZ (A ++ B)]).flatten.Nodup ∧
    (∀ C, C ∈ (bs.erase A).erase B ++ [sortZ (A ++ B)] ↔ (C ∈ bs ∧ a ∉ C ∧ b ∉ C) ∨ C = sortZ (A ++ B)) ∧
    (∀ x, x ∈ sortZ (A ++ B) ↔ Eqv bs x a ∨ Eqv bs x b) := by
  have hB' : B ∈ bs.erase A := (h.nodup_blocks.mem_erase_iff).2 ⟨hne.symm, hB⟩
  refine ⟨?_, ?_, ?_⟩
  · have hp : bs.Perm (A :: B :: (bs.erase A).erase B) :=
      (List.perm_cons_erase hA).trans ((List.perm_cons_erase hB').cons A)
    have hp2 : ((bs.erase A).erase B ++ [sortZ (A ++ B)]).flatten.Perm bs.flatten := by
      refine List.Perm.trans ?_ hp.flatten.symm
      simp only [List.flatten_append, List.flatten_cons, List.flatten_nil, List.append_nil]
      refine List.perm_append_comm.trans ?_
      rw [← List.append_assoc]
      exact (sortZ_perm _).append_right _
    exact hp2.nodup_iff.2 h.nodup
  · intro C
    rw [List.mem_append, List.mem_singleton]
    have h1 : C ∈ (bs.erase A).erase B ↔ C ∈ bs ∧ a ∉ C ∧ b ∉ C := by
      rw [(h.nodup_blocks.erase A).mem_erase_iff, h.nodup_blocks.mem_erase_iff]
      constructor
      · rintro ⟨h1, h2, h3⟩
        exact ⟨h3, fun h4 => h2 (h.unique h3 hA h4 ha), fun h4 => h1 (h.unique h3 hB h4 hb)⟩
      · rintro ⟨h1, h2, h3⟩
        exact ⟨by rintro rfl; exact h3 hb, by rintro rfl; exact h2 ha, h1⟩
    rw [h1]
  · intro x
    rw [mem_sortZ, List.mem_append]
    constructor
    · rintro (hx | hx)
      · exact Or.inl (eqv_of_mem hA hx ha)
      · exact Or.inr (eqv_of_mem hB hx hb)
    · rintro (hx | hx)
      · exact Or.inl (mem_of_eqv h hA ha hx.symm)
      · exact Or.inr (mem_of_eqv h hB hb hx.symm)

theorem eqv_single {bs : List (List Int)} {a x : Int} (ha : ∀ B ∈ bs, a ∉ B) : Eqv bs x a ↔ x = a := by
  constructor
  · rintro (h | ⟨B, hB, _, h⟩)
    · exact h
    · exact absurd h (ha B hB)
  · exact Or.inl

theorem raw_none {bs : List (List Int)} (h : Canon bs) {a b : Int} (hab : a ≠ b) (ha : ∀ B ∈ bs, a ∉ B)
    (hb : ∀ B ∈ bs, b ∉ B) :
    (bs ++ [[a, b]]).flatten.Nodup ∧
    (∀ C, C ∈ bs ++ [[a, b]] ↔ (C ∈ bs ∧ a ∉ C ∧ b ∉ C) ∨ C = [a, b]) ∧
    (∀ x, x ∈ [a, b] ↔ Eqv bs x a ∨ Eqv bs x b) := by
  refine ⟨?_, ?_, ?_⟩
  · rw [List.flatten_append, List.nodup_append]
    refine ⟨h.nodup, by simpa using hab, ?_⟩
    intro x hx y hy hxy
    subst hxy
    obtain ⟨B, hB, hxB⟩ := List.mem_flatten.1 hx
    simp only [List.flatten_cons, List.flatten_nil, List.append_nil, List.mem_cons, List.not_mem_nil, or_false] at hy
    rcases hy with rfl | rfl
    · exact ha B hB hxB
    · exact hb B hB hxB
  · intro C
    rw [List.mem_append, List.mem_singleton]
    constructor
    · rintro (hC | rfl)
      · exact Or.inl ⟨hC, ha C hC, hb C hC⟩
      · exact Or.inr rfl
    · rintro (⟨hC, _⟩ | rfl)
      · exact Or.inl hC
      · exact Or.inr rfl
  · intro x
    rw [eqv_single ha, eqv_single hb]
    simp

theorem raw_one {bs : List (List Int)} (h : Canon bs) {A : List Int} {a b : Int} {i : Nat} (hi : bs[i]? = some A)
    (ha : a ∈ A) (hb : ∀ B ∈ bs, b ∉ B) :
    (bs.set i (A ++ [b])).flatten.Nodup ∧
    (∀ C, C ∈ bs.set i (A ++ [b]) ↔ (C ∈ bs ∧ a ∉ C ∧ b ∉ C) ∨ C = A ++ [b]) ∧
    (∀ x, x ∈ A ++ [b] ↔ Eqv bs x a ∨ Eqv bs x b) := by
  have hA : A ∈ bs := List.mem_of_getElem? hi
  obtain ⟨hlt, hiA⟩ := List.getElem?_eq_some_iff.1 hi
  have hset : (bs.set i (A ++ [b])).Perm ((A ++ [b]) :: bs.erase A) := by
    have h1 : bs.set i (A ++ [b]) = bs.take i ++ (A ++ [b]) :: bs.drop (i + 1) := by
      rw [List.set_eq_take_append_cons_drop, if_pos hlt]
    have h2 : bs = bs.take i ++ A :: bs.drop (i + 1) := by
      conv_lhs => rw [← List.take_append_drop i bs, List.drop_eq_getElem_cons hlt, hiA]
    rw [h1]
    refine List.perm_middle.trans (List.Perm.cons _ ?_)
    have h3 : bs.Perm (A :: (bs.take i ++ bs.drop (i + 1))) := by
      conv_lhs => rw [h2]
      exact List.perm_middle
    have h4 := h3.symm.trans (List.perm_cons_erase hA)
    exact h4.cons_inv
  refine ⟨?_, ?_, ?_⟩
  · have hp : (bs.set i (A ++ [b])).flatten.Perm (b :: bs.flatten) := by
      refine hset.flatten.trans ?_
      refine List.Perm.trans ?_ ((List.perm_cons_erase hA).flatten.symm.cons b)
      simp only [List.flatten_cons, List.append_assoc, List.singleton_append]
      exact List.perm_middle
    rw [hp.nodup_iff, List.nodup_cons]
    refine ⟨?_, h.nodup⟩
    intro hx
    obtain ⟨B, hB, hxB⟩ := List.mem_flatten.1 hx
    exact hb B hB hxB
  · intro C
    rw [hset.mem_iff, List.mem_cons, h.nodup_blocks.mem_erase_iff, or_comm]
    have : C ≠ A ∧ C ∈ bs ↔ C ∈ bs ∧ a ∉ C ∧ b ∉ C := by
      constructor
      · rintro ⟨h1, h2⟩
        exact ⟨h2, fun h3 => h1 (h.unique h2 hA h3 ha), hb C h2⟩
      · rintro ⟨h1, h2, _⟩
        exact ⟨by rintro rfl; exact h2 ha, h1⟩
    rw [this]
  · intro x
    rw [eqv_single hb, List.mem_append, List.mem_singleton]
    constructor
    · rintro (hx | hx)
      · exact Or.inl (eqv_of_mem hA hx ha)
      · exact Or.inr hx
    · rintro (hx | hx)
      · exact Or.inl (mem_of_eqv h hA ha hx.symm)
      · exact Or.inr hx

/-! ### `merge_pair` -/

/-- set_part/methods/merge_pair/__init__.py:19-47, after the labels have been merged -/
def mergeCore (p : SetPart L) (a b : Int) : Except Err Unit × SetPart L :=
  let aFound := p.nonSingletons.contains a
  let bFound := p.nonSingletons.contains b
  let indexA := (p.nonSingletonToBlockIndex.get? a).getD 0
  let indexB := (p.nonSingletonToBlockIndex.get? b).getD 0
  if aFound && bFound then
    if indexA = indexB then (.ok (), p)
    else
      let blockA := (p.blocks[indexA]?).getD []
      let blockB := (p.blocks[indexB]?).getD []
      let mergedBlock := sortZ (blockA ++ blockB)
      reinit { p with blocks := ((p.blocks.erase blockA).erase blockB) ++ [mergedBlock] }
  else if ! aFound && ! bFound then
    reinit { p with blocks := p.blocks ++ [[a, b]] }
  else if bFound && ! aFound then
    reinit (p.appendToBlock indexB a)
  else
    reinit (p.appendToBlock indexA b)

theorem mergePair_eq [DecidableEq L] (p : SetPart L) (a b : Int) :
    p.mergePair a b = if a = b then (.ok (), p)
      else if ! (p.elementInDomain a && p.elementInDomain b) then (.error .notInDomain, p)
      else match p.mergeBlockLabels a b with
        | (.error e, p) => (.error e, p)
        | (.ok _, p) => mergeCore p a b := rfl

theorem reinit_ok {p : SetPart L} (h : p.blocks.flatten.Nodup) :
    ∃ q, reinit p = (.ok (), q) ∧ WF q ∧ q.blocks = cleanBlocks p.blocks ∧ q.domain = p.domain ∧
      q.blockLabels = (if cleanBlocks p.blocks = [] then [] else p.blockLabels) ∧
      q.cache = { p.cache with aliased := false } := by
  obtain ⟨q, h1, h2, h3, h4, h5, h6⟩ := init_ok (d := p.domain) (l := p.blockLabels) (c := p.cache)
    (nodup_filter_flatten h _)
  exact ⟨q, by unfold reinit; rw [h1], h2, h3, h4, h5, h6⟩

theorem cleanBlocks_ne_nil {raw : List (List Int)} {M : List Int} (hM : M ∈ raw) (h : 1 < M.length) : cleanBlocks raw ≠ [] :=
  List.ne_nil_of_mem (mem_cleanBlocks.2 ⟨M, hM, h, rfl⟩)

/-- `reinit` after one of the three changes -/
theorem reinit_merge {p p' : SetPart L} (h : WF p) {a b : Int} {M : List Int}
    (hn : p'.blocks.flatten.Nodup) (hab : a ≠ b)
    (hraw : ∀ C, C ∈ p'.blocks ↔ (C ∈ p.blocks ∧ a ∉ C ∧ b ∉ C) ∨ C = M)
    (hM : ∀ x, x ∈ M ↔ Eqv p.blocks x a ∨ Eqv p.blocks x b) :
    ∃ q, reinit p' = (.ok (), q) ∧ WF q ∧ q.domain = p'.domain ∧ q.blockLabels = p'.blockLabels ∧
      q.cache = { p'.cache with aliased := false } ∧ q.blocks ≠ [] ∧
      ∀ x y, Eqv q.blocks x y ↔ MergeRel (Eqv p.blocks) a b x y := by
  obtain ⟨q, h1, h2, h3, h4, h5, h6⟩ := reinit_ok hn
  have hMl : 1 < M.length := by
    have ha : a ∈ M := (hM a).2 (Or.inl (Or.inl rfl))
    have hb : b ∈ M := (hM b).2 (Or.inr (Or.inl rfl))
    match M, ha, hb with
    | [x], ha, hb => simp only [List.mem_singleton] at ha hb; exact absurd (ha.trans hb.symm) hab
    | x :: y :: l, _, _ => simp
  have hne := cleanBlocks_ne_nil ((hraw M).2 (Or.inr rfl)) hMl
  refine ⟨q, h1, h2, h4, by rw [h5, if_neg hne], h6, by rw [h3]; exact hne, ?_⟩
  intro x y
  rw [h3, eqv_cleanBlocks, eqv_merge h.canon hraw hM]

theorem mergeRel_of_eqv {bs : List (List Int)} (h : Canon bs) {a b : Int} (hab : Eqv bs a b) (x y : Int) :
    Eqv bs x y ↔ MergeRel (Eqv bs) a b x y := by
  constructor
  · exact Or.inl
  · rintro (h1 | ⟨h1, h2⟩ | ⟨h1, h2⟩)
    · exact h1
    · exact (h1.trans h hab).trans h h2
    · exact (h1.trans h hab.symm).trans h h2

theorem MergeRel.comm {r : Int → Int → Prop} {a b x y : Int} : MergeRel r a b x y ↔ MergeRel r b a x y := by
  unfold MergeRel; rw [or_comm (a := r x a ∧ r b y)]

theorem mergeCore_ok {p : SetPart L} (h : WF p) {a b : Int} (hab : a ≠ b) :
    ∃ q, mergeCore p a b = (.ok (), q) ∧ WF q ∧ q.domain = p.domain ∧ q.blockLabels = p.blockLabels ∧ q.blocks ≠ [] ∧
      ∀ x y, Eqv q.blocks x y ↔ MergeRel (Eqv p.blocks) a b x y := by
  unfold mergeCore
  simp only [List.contains_eq_mem]
  by_cases ha : a ∈ p.nonSingletons
  · obtain ⟨A, hA, haA⟩ := h.mem_ns.1 ha
    obtain ⟨i, hi, hi'⟩ := h.get_of_mem hA haA
    by_cases hb : b ∈ p.nonSingletons
    · rw [if_pos (by simp [ha, hb])]
      obtain ⟨B, hB, hbB⟩ := h.mem_ns.1 hb
      obtain ⟨j, hj, hj'⟩ := h.get_of_mem hB hbB
      simp only [hi, hj, Option.getD_some, hi', hj']
      by_cases hij : i = j
      · rw [if_pos hij]
        subst hij
        rw [hi'] at hj'; cases hj'
        exact ⟨p, rfl, h, rfl, rfl, List.ne_nil_of_mem hA, mergeRel_of_eqv h.canon (eqv_of_mem hA haA hbB)⟩
      · rw [if_neg hij]
        have hne : A ≠ B := by
          rintro rfl
          apply hij
          have := h.canon.nodup_blocks
          obtain ⟨l1, e1⟩ := List.getElem?_eq_some_iff.1 hi'
          obtain ⟨l2, e2⟩ := List.getElem?_eq_some_iff.1 hj'
          exact (List.Nodup.getElem_inj_iff this).1 (e1.trans e2.symm)
        obtain ⟨h1, h2, h3⟩ := raw_both h.canon hA hB haA hbB hne
        obtain ⟨q, e1, e2, e3, e4, e5, e6, e7⟩ := reinit_merge (p' := { p with blocks := _ }) h h1 hab h2 h3
        exact ⟨q, e1, e2, e3, e4, e6, e7⟩
    · rw [if_neg (by simp [hb]), if_neg (by simp [ha]), if_neg (by simp [ha])]
      have hb' : ∀ B ∈ p.blocks, b ∉ B := fun B hB hbB => hb (h.mem_ns.2 ⟨B, hB, hbB⟩)
      obtain ⟨h1, h2, h3⟩ := raw_one h.canon hi' haA hb'
      have hp : (p.appendToBlock i b).blocks = p.blocks.set i (A ++ [b]) := by
        unfold SetPart.appendToBlock; simp [hi']
      rw [hi, Option.getD_some]
      obtain ⟨q, e1, e2, e3, e4, e5, e6, e7⟩ := reinit_merge (p' := p.appendToBlock i b) h
        (by rw [hp]; exact h1) hab (by rw [hp]; exact h2) h3
      exact ⟨q, e1, e2, e3, e4, e6, e7⟩
  · have ha' : ∀ B ∈ p.blocks, a ∉ B := fun B hB haB => ha (h.mem_ns.2 ⟨B, hB, haB⟩)
    by_cases hb : b ∈ p.nonSingletons
    · rw [if_neg (by simp [ha]), if_neg (by simp [hb]), if_pos (by simp [ha, hb])]
      obtain ⟨B, hB, hbB⟩ := h.mem_ns.1 hb
      obtain ⟨j, hj, hj'⟩ := h.get_of_mem hB hbB
      obtain ⟨h1, h2, h3⟩ := raw_one h.canon hj' hbB ha'
      have hp : (p.appendToBlock j a).blocks = p.blocks.set j (B ++ [a]) := by
        unfold SetPart.appendToBlock; simp [hj']
      rw [hj, Option.getD_some]
      obtain ⟨q, e1, e2, e3, e4, e5, e6, e7⟩ := reinit_merge (p' := p.appendToBlock j a) h
        (by rw [hp]; exact h1) hab.symm (by rw [hp]; exact h2) h3
      exact ⟨q, e1, e2, e3, e4, e6, fun x y => (e7 x y).trans MergeRel.comm⟩
    · rw [if_neg (by simp [hb]), if_pos (by simp [ha, hb])]
      have hb' : ∀ B ∈ p.blocks, b ∉ B := fun B hB hbB => hb (h.mem_ns.2 ⟨B, hB, hbB⟩)
      obtain ⟨h1, h2, h3⟩ := raw_none h.canon hab ha' hb'
      obtain ⟨q, e1, e2, e3, e4, e5, e6, e7⟩ := reinit_merge (p' := { p with blocks := _ }) h h1 hab h2 h3
      exact ⟨q, e1, e2, e3, e4, e6, e7⟩

/-- The state after merging the labels differs only in the labels. -/
theorem mergeBlockLabels_state [DecidableEq L] (p : SetPart L) (a b : Int) :
    ∃ d, (p.mergeBlockLabels a b).2 = { p with blockLabels := d } := by
  unfold SetPart.mergeBlockLabels
  simp only
  split
  · exact ⟨p.blockLabels, rfl⟩
  · split
    · exact ⟨p.blockLabels, rfl⟩
    · split
      · split
        · exact ⟨_, rfl⟩
        · exact ⟨_, rfl⟩
      · exact ⟨_, rfl⟩

theorem WF.withLabels {p : SetPart L} (h : WF p) (d : Dict (List Int) L) : WF { p with blockLabels := d } :=
  ⟨h.canon, h.index, h.ns, h.len, h.triv⟩

/-- `merge_pair` when merging the labels succeeds. -/
theorem mergePair_ok [DecidableEq L] {p : SetPart L} (h : WF p) {a b : Int} (hab : a ≠ b) (ha : p.elementInDomain a = true)
    (hb : p.elementInDomain b = true) {d : Dict (List Int) L}
    (hl : p.mergeBlockLabels a b = (.ok (), { p with blockLabels := d })) :
    ∃ q, p.mergePair a b = (.ok (), q) ∧ WF q ∧ q.domain = p.domain ∧ q.blockLabels = d ∧ q.blocks ≠ [] ∧
      ∀ x y, Eqv q.blocks x y ↔ MergeRel (Eqv p.blocks) a b x y := by
  rw [mergePair_eq, if_neg hab, if_neg (by simp [ha, hb]), hl]
  exact mergeCore_ok (h.withLabels d) hab

/-- Without labels, merging labels does nothing. -/
theorem mergeBlockLabels_nil [DecidableEq L] {p : SetPart L} (h : p.blockLabels = []) (a b : Int) :
    p.mergeBlockLabels a b = (.ok (), { p with blockLabels := [] }) := by
  have hp : p = { p with blockLabels := [] } := by cases p; simp only at h; subst h; rfl
  unfold SetPart.mergeBlockLabels SetPart.getLabelFromBlock
  simp only [h, Dict.get?, Option.isSome_none, Bool.false_and, Bool.false_eq_true, if_false, Option.or_none, Dict.erase]
  split
  · rw [← hp]
  · rfl

end Verif.SP
