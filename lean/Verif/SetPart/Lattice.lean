import Verif.SetPart.Props

/-!
# Lemmas about `meet` and `join`
-/

namespace Verif.SP
open Verif.Py

variable {L : Type}

/-! ### pairs -/

theorem mem_combinations2 {l : List Int} (h : l.Pairwise (· < ·)) {a b : Int} :
    (a, b) ∈ combinations2 l ↔ a ∈ l ∧ b ∈ l ∧ a < b := by
  induction l with
  | nil => simp [combinations2]
  | cons x l ih =>
    rw [List.pairwise_cons] at h
    rw [combinations2, List.mem_append, List.mem_map, ih h.2]
    constructor
    · rintro (⟨y, hy, he⟩ | ⟨h1, h2, h3⟩)
      · cases he
        exact ⟨by simp, by simp [hy], h.1 b hy⟩
      · exact ⟨by simp [h1], by simp [h2], h3⟩
    · rintro ⟨h1, h2, h3⟩
      rcases List.mem_cons.1 h1 with rfl | k1
      · rcases List.mem_cons.1 h2 with rfl | k2
        · exact absurd h3 (lt_irrefl _)
        · exact Or.inl ⟨b, k2, rfl⟩
      · rcases List.mem_cons.1 h2 with rfl | k2
        · exact absurd (lt_trans (h.1 a k1) h3) (lt_irrefl _)
        · exact Or.inr ⟨k1, k2, h3⟩

theorem mem_computePairs {p : SetPart L} (h : WF p) {a b : Int} :
    (a, b) ∈ p.computePairs ↔ a < b ∧ Joined p.blocks a b := by
  unfold SetPart.computePairs
  rw [mem_pySet, List.mem_flatMap]
  constructor
  · rintro ⟨B, hB, hab⟩
    rw [mem_combinations2 (h.canon.lt B hB)] at hab
    exact ⟨hab.2.2, B, hB, hab.1, hab.2.1⟩
  · rintro ⟨hab, B, hB, ha, hb⟩
    exact ⟨B, hB, (mem_combinations2 (h.canon.lt B hB)).2 ⟨ha, hb, hab⟩⟩

/-! ### meet -/

theorem nodup_inter {s : List Int} (o : List Int) : ((pySet s).filter (o.contains ·)).Nodup :=
  (nodup_pySet s).filter _

theorem mem_inter {s o : List Int} {x : Int} : x ∈ sortZ ((pySet s).filter (o.contains ·)) ↔ x ∈ s ∧ x ∈ o := by
  rw [mem_sortZ, List.mem_filter, mem_pySet, List.contains_iff_mem]

theorem meet_ok {p q : SetPart L} (hp : WF p) (hq : WF q) (hd : SameDomain p.domain q.domain) :
    ∃ r, p.meet q = .ok r ∧ WF r ∧ r.domain = p.domain ∧ r.blockLabels = [] ∧
      ∀ x y, Eqv r.blocks x y ↔ Eqv p.blocks x y ∧ Eqv q.blocks x y := by
  unfold SetPart.meet
  rw [if_neg (by rw [(domain_eq_iff _ _).2 hd]; simp)]
  simp only
  generalize hraw : (p.blocks.flatMap (fun s => q.blocks.map (fun o => sortZ ((pySet s).filter (o.contains ·))))).filter
      (fun intersection => ! intersection.isEmpty) = raw
  have hmem : ∀ C, C ∈ raw → ∃ s ∈ p.blocks, ∃ o ∈ q.blocks, C = sortZ ((pySet s).filter (o.contains ·)) := by
    intro C hC
    rw [← hraw] at hC
    obtain ⟨s, hs, hC⟩ := List.mem_flatMap.1 (List.mem_of_mem_filter hC)
    obtain ⟨o, ho, rfl⟩ := List.mem_map.1 hC
    exact ⟨s, hs, o, ho, rfl⟩
  have hno : NoOverlap raw := by
    constructor
    · intro C hC _
      obtain ⟨s, _, o, _, rfl⟩ := hmem C hC
      exact (sortZ_perm _).nodup_iff.2 (nodup_inter o)
    · apply List.Pairwise.filter
      rw [← hraw]
      apply List.Pairwise.filter
      rw [List.pairwise_flatMap]
      have h1 := (List.nodup_flatten.1 hp.canon.nodup).2
      have h2 := (List.nodup_flatten.1 hq.canon.nodup).2
      constructor
      · intro s _
        rw [List.pairwise_map]
        refine h2.imp ?_
        intro o o' hd x hx hx'
        exact hd (mem_inter.1 hx).2 (mem_inter.1 hx').2
      · refine h1.imp ?_
        intro s s' hd C hC C' hC' x hx hx'
        obtain ⟨o, _, rfl⟩ := List.mem_map.1 hC
        obtain ⟨o', _, rfl⟩ := List.mem_map.1 hC'
        exact hd (mem_inter.1 hx).1 (mem_inter.1 hx').1
  obtain ⟨r, h1, h2, h3, h4, h5⟩ := (C37_construction (L := L) raw p.domain).1 hno
  refine ⟨r, h1, h2, h3, h4, ?_⟩
  intro x y
  by_cases hxy : x = y
  · exact ⟨fun _ => ⟨Or.inl hxy, Or.inl hxy⟩, fun _ => Or.inl hxy⟩
  · have e : ∀ bs, Eqv bs x y ↔ Joined bs x y := fun bs => ⟨fun h => h.resolve_left hxy, Or.inr⟩
    rw [e, e, e, ← h2.pairInSameBlock, h5 x y hxy]
    constructor
    · rintro ⟨C, hC, hx, hy⟩
      obtain ⟨s, hs, o, ho, rfl⟩ := hmem C hC
      rw [mem_inter] at hx hy
      exact ⟨⟨s, hs, hx.1, hy.1⟩, ⟨o, ho, hx.2, hy.2⟩⟩
    · rintro ⟨⟨s, hs, hx, hy⟩, ⟨o, ho, hx', hy'⟩⟩
      have hx2 := mem_inter.2 ⟨hx, hx'⟩
      refine ⟨_, ?_, hx2, mem_inter.2 ⟨hy, hy'⟩⟩
      rw [← hraw, List.mem_filter]
      refine ⟨List.mem_flatMap.2 ⟨s, hs, List.mem_map.2 ⟨o, ho, rfl⟩⟩, ?_⟩
      rw [Bool.not_eq_true', List.isEmpty_eq_false_iff]
      exact List.ne_nil_of_mem hx2

/-! ### join -/

/-- connected by a chain of blocks of both partitions -/
def Chain (p q : SetPart L) : Int → Int → Prop :=
  Relation.EqvGen (fun u v => Joined p.blocks u v ∨ Joined q.blocks u v)

theorem mem_joinBlocks_added {p : SetPart L} (h : WF p) {s : JoinState} {x : Int} :
    x ∈ pySet (s.new.filter (fun e => (p.nonSingletonToBlockIndex.get? e).isNone) ++
      (pySet (s.new.filterMap (fun e => p.nonSingletonToBlockIndex.get? e))).flatMap (fun i => (p.blocks[i]?).getD [])) ↔
    ∃ e ∈ s.new, Eqv p.blocks e x := by
  rw [mem_pySet, List.mem_append, List.mem_filter, List.mem_flatMap]
  constructor
  · rintro (⟨h1, _⟩ | ⟨i, hi, hx⟩)
    · exact ⟨x, h1, Or.inl rfl⟩
    · rw [mem_pySet, List.mem_filterMap] at hi
      obtain ⟨e, he, hei⟩ := hi
      obtain ⟨B, hB, heB⟩ := h.get.1 hei
      rw [hB] at hx
      exact ⟨e, he, eqv_of_mem (List.mem_of_getElem? hB) heB hx⟩
  · rintro ⟨e, he, hex⟩
    cases hg : p.nonSingletonToBlockIndex.get? e with
    | none =>
      left
      rcases hex with rfl | ⟨B, hB, heB, hx⟩
      · exact ⟨he, by simp [hg]⟩
      · obtain ⟨i, hi, _⟩ := h.get_of_mem hB heB
        rw [hg] at hi; cases hi
    | some i =>
      right
      obtain ⟨B, hB, heB⟩ := h.get.1 hg
      refine ⟨i, by rw [mem_pySet, List.mem_filterMap]; exact ⟨e, he, hg⟩, ?_⟩
      rw [hB]
      exact mem_of_eqv h.canon (List.mem_of_getElem? hB) heB hex

/-- `c` contains the blocks of the elements of `c` outside of `l`. -/
def ClosedExcept (bs : List (List Int)) (c l : List Int) : Prop := ∀ x ∈ c, x ∉ l → ∀ y, Eqv bs x y → y ∈ c

theorem joinBlocks_spec {p : SetPart L} (h : WF p) (s : JoinState) (hn : s.current.Nodup) :
    (joinBlocks p s).current.Nodup ∧
    (∀ x ∈ (joinBlocks p s).new, x ∈ (joinBlocks p s).current) ∧
    (∀ x, x ∈ (joinBlocks p s).current ↔ x ∈ s.current ∨ ∃ e ∈ s.new, Eqv p.blocks e x) ∧
    (∀ x, x ∈ (joinBlocks p s).new ↔ x ∉ s.current ∧ ∃ e ∈ s.new, Eqv p.blocks e x) ∧
    (joinBlocks p s).current.length = s.current.length + (joinBlocks p s).new.length := by
  have hnew : ∀ x, x ∈ (joinBlocks p s).new ↔ x ∉ s.current ∧ ∃ e ∈ s.new, Eqv p.blocks e x := by
    intro x
    unfold joinBlocks
    simp only
    rw [List.mem_filter, mem_joinBlocks_added h]
    simp only [List.contains_eq_mem, Bool.not_eq_true', decide_eq_false_iff_not]
    exact and_comm
  have hcur : (joinBlocks p s).current = s.current ++ (joinBlocks p s).new := rfl
  refine ⟨?_, ?_, ?_, hnew, ?_⟩
  · rw [hcur, List.nodup_append]
    refine ⟨hn, ?_, ?_⟩
    · unfold joinBlocks
      exact (nodup_pySet _).filter _
    · rintro x hx y hy rfl
      exact ((hnew x).1 hy).1 hx
  · intro x hx
    rw [hcur]; exact List.mem_append_right _ hx
  · intro x
    rw [hcur, List.mem_append, hnew]
    constructor
    · rintro (h1 | ⟨_, h2⟩)
      · exact Or.inl h1
      · exact Or.inr h2
    · rintro (h1 | h2)
      · exact Or.inl h1
      · by_cases h1 : x ∈ s.current
        · exact Or.inl h1
        · exact Or.inr ⟨h1, h2⟩
  · rw [hcur, List.length_append]

/-- expanding by `p` closes under `p`, if only the new elements were missing -/
theorem joinBlocks_closed {p : SetPart L} (h : WF p) {s : JoinState} (hn : s.current.Nodup)
    (hc : ClosedExcept p.blocks s.current s.new) : ClosedExcept p.blocks (joinBlocks p s).current [] := by
  obtain ⟨_, _, h3, _, _⟩ := joinBlocks_spec h s hn
  intro x hx _ y hxy
  rw [h3] at hx ⊢
  rcases hx with hx | ⟨e, he, hex⟩
  · by_cases hxn : x ∈ s.new
    · exact Or.inr ⟨x, hxn, hxy⟩
    · exact Or.inl (hc x hx hxn y hxy)
  · exact Or.inr ⟨e, he, hex.trans h.canon hxy⟩

/-- and keeps closedness under another partition, up to the new elements -/
theorem joinBlocks_other {p q : SetPart L} (h : WF p) {s : JoinState} (hn : s.current.Nodup)
    (hc : ClosedExcept q.blocks s.current []) : ClosedExcept q.blocks (joinBlocks p s).current (joinBlocks p s).new := by
  obtain ⟨_, _, h3, h4, _⟩ := joinBlocks_spec h s hn
  intro x hx hxn y hxy
  rw [h3]
  have hx' : x ∈ s.current := by
    by_contra hx'
    rcases (h3 x).1 hx with h1 | h1
    · exact hx' h1
    · exact hxn ((h4 x).2 ⟨hx', h1⟩)
  exact Or.inl (hc x hx' (by simp) y hxy)

theorem chain_of_eqv_left {p q : SetPart L} {x y : Int} (h : Eqv p.blocks x y) : Chain p q x y := by
  rcases h with rfl | h
  · exact .refl _
  · exact .rel _ _ (Or.inl h)

theorem chain_of_eqv_right {p q : SetPart L} {x y : Int} (h : Eqv q.blocks x y) : Chain p q x y := by
  rcases h with rfl | h
  · exact .refl _
  · exact .rel _ _ (Or.inr h)

theorem joinLoop_ok {p q : SetPart L} (hp : WF p) (hq : WF q) (e : Int) (order : List Int)
    (hin : ∀ x, Chain p q e x → x ∈ order) (fuel : Nat) (s : JoinState) (hn : s.current.Nodup)
    (hcls : ∀ x, x ∈ s.current ∨ x ∈ s.new → Chain p q e x) (he : e ∈ s.current ∨ e ∈ s.new)
    (hcp : ClosedExcept p.blocks s.current s.new) (hcq : ClosedExcept q.blocks s.current [])
    (hf : order.length + 2 ≤ fuel + s.current.length) :
    ∃ block, joinLoop p q fuel s = some block ∧ block.Nodup ∧ ∀ x, x ∈ block ↔ Chain p q e x := by
  induction fuel generalizing s with
  | zero =>
    have h1 : s.current.length ≤ order.length :=
      (List.subperm_of_subset hn (fun x hx => hin x (hcls x (Or.inl hx)))).length_le
    omega
  | succ fuel ih =>
    obtain ⟨a1, a2, a3, a4, a5⟩ := joinBlocks_spec hp s hn
    obtain ⟨b1, b2, b3, b4, b5⟩ := joinBlocks_spec hq (joinBlocks p s) a1
    have hcls1 : ∀ x, x ∈ (joinBlocks p s).current → Chain p q e x := by
      intro x hx
      rcases (a3 x).1 hx with h | ⟨y, hy, hyx⟩
      · exact hcls x (Or.inl h)
      · exact (hcls y (Or.inr hy)).trans _ _ _ (chain_of_eqv_left hyx)
    have hcls2 : ∀ x, x ∈ (joinBlocks q (joinBlocks p s)).current → Chain p q e x := by
      intro x hx
      rcases (b3 x).1 hx with h | ⟨y, hy, hyx⟩
      · exact hcls1 x h
      · exact (hcls1 y (a2 y hy)).trans _ _ _ (chain_of_eqv_right hyx)
    have he2 : e ∈ (joinBlocks q (joinBlocks p s)).current := by
      rw [b3, a3]
      left
      rcases he with he | he
      · exact Or.inl he
      · exact Or.inr ⟨e, he, Or.inl rfl⟩
    have c1 : ClosedExcept p.blocks (joinBlocks p s).current [] := joinBlocks_closed hp hn hcp
    have c2 : ClosedExcept q.blocks (joinBlocks p s).current (joinBlocks p s).new := joinBlocks_other hp hn hcq
    have c3 : ClosedExcept q.blocks (joinBlocks q (joinBlocks p s)).current [] := joinBlocks_closed hq a1 c2
    have c4 : ClosedExcept p.blocks (joinBlocks q (joinBlocks p s)).current (joinBlocks q (joinBlocks p s)).new :=
      joinBlocks_other hq a1 c1
    rw [joinLoop]
    by_cases hlen : (joinBlocks p s).new.length + (joinBlocks q (joinBlocks p s)).new.length > 0
    · rw [if_pos hlen]
      refine ih _ b1 ?_ (Or.inl he2) c4 c3 (by omega)
      rintro x (hx | hx)
      · exact hcls2 x hx
      · exact hcls2 x (b2 x hx)
    · rw [if_neg hlen]
      refine ⟨_, rfl, b1, fun x => ⟨hcls2 x, fun hx => ?_⟩⟩
      have hnil : (joinBlocks q (joinBlocks p s)).new = [] := List.length_eq_zero_iff.1 (by omega)
      rw [hnil] at c4
      have key : ∀ x y, Chain p q x y →
          (x ∈ (joinBlocks q (joinBlocks p s)).current ↔ y ∈ (joinBlocks q (joinBlocks p s)).current) := by
        intro x y hxy
        induction hxy with
        | rel u v huv =>
          rcases huv with huv | huv
          · exact ⟨fun h => c4 u h (by simp) v (Or.inr huv), fun h => c4 v h (by simp) u (Or.inr (Canon.symm huv))⟩
          · exact ⟨fun h => c3 u h (by simp) v (Or.inr huv), fun h => c3 v h (by simp) u (Or.inr (Canon.symm huv))⟩
        | refl u => exact Iff.rfl
        | symm u v _ ih => exact ih.symm
        | trans u v w _ _ i1 i2 => exact i1.trans i2
      exact (key e x hx).1 he2

theorem joinElements_ok {p q : SetPart L} (hp : WF p) (hq : WF q) (order : List Int)
    (hin : ∀ e ∈ order, ∀ x, Chain p q e x → x ∈ order) (l : List Int) (hl : ∀ x ∈ l, x ∈ order) (done : List Int)
    (blocks : List (List Int)) (hdone : ∀ x, x ∈ done ↔ ∃ B ∈ blocks, x ∈ B) (hnd : blocks.flatten.Nodup)
    (hcl : ∀ B ∈ blocks, ∀ x ∈ B, ∀ y, y ∈ B ↔ Chain p q x y) :
    ∃ bs, joinElements p q (order.length + 2) l done blocks = .ok bs ∧ bs.flatten.Nodup ∧
      (∀ B ∈ bs, ∀ x ∈ B, ∀ y, y ∈ B ↔ Chain p q x y) ∧ (∀ x ∈ l, ∃ B ∈ bs, x ∈ B) ∧ (∀ B ∈ blocks, B ∈ bs) := by
  induction l generalizing done blocks with
  | nil => exact ⟨blocks, rfl, hnd, hcl, by simp, fun B hB => hB⟩
  | cons e l ih =>
    rw [joinElements]
    by_cases he : e ∈ done
    · rw [if_pos (by simpa using he)]
      obtain ⟨bs, h1, h2, h3, h4, h5⟩ := ih (fun x hx => hl x (by simp [hx])) done blocks hdone hnd hcl
      refine ⟨bs, h1, h2, h3, ?_, h5⟩
      intro x hx
      rcases List.mem_cons.1 hx with rfl | hx
      · obtain ⟨B, hB, hxB⟩ := (hdone x).1 he
        exact ⟨B, h5 B hB, hxB⟩
      · exact h4 x hx
    · rw [if_neg (by simpa using he)]
      obtain ⟨block, b1, b2, b3⟩ := joinLoop_ok hp hq e order (hin e (hl e (by simp))) (order.length + 2)
        { current := [], new := [e] } List.nodup_nil (by
          rintro x (hx | hx)
          · simp at hx
          · simp only [List.mem_singleton] at hx; subst hx; exact .refl _) (by simp)
        (by intro x hx; simp at hx) (by intro x hx; simp at hx) (by simp)
      rw [b1]
      simp only
      obtain ⟨bs, h1, h2, h3, h4, h5⟩ := ih (fun x hx => hl x (by simp [hx])) (done ++ block) (blocks ++ [block])
        (by
          intro x
          rw [List.mem_append, hdone]
          constructor
          · rintro (⟨B, hB, hx⟩ | hx)
            · exact ⟨B, by simp [hB], hx⟩
            · exact ⟨block, by simp, hx⟩
          · rintro ⟨B, hB, hx⟩
            rcases List.mem_append.1 hB with hB | hB
            · exact Or.inl ⟨B, hB, hx⟩
            · simp only [List.mem_singleton] at hB; subst hB; exact Or.inr hx)
        (by
          rw [List.flatten_append, List.nodup_append]
          refine ⟨hnd, by simpa using b2, ?_⟩
          rintro x hx y hy rfl
          obtain ⟨B, hB, hxB⟩ := List.mem_flatten.1 hx
          simp only [List.flatten_cons, List.flatten_nil, List.append_nil] at hy
          have h1 : Chain p q x e := ((b3 x).1 hy).symm _ _
          exact he ((hdone e).2 ⟨B, hB, (hcl B hB x hxB e).2 h1⟩))
        (by
          intro B hB x hx y
          rcases List.mem_append.1 hB with hB | hB
          · exact hcl B hB x hx y
          · simp only [List.mem_singleton] at hB
            subst hB
            rw [b3] at hx ⊢
            exact ⟨fun h => (hx.symm _ _).trans _ _ _ h, fun h => hx.trans _ _ _ h⟩)
      refine ⟨bs, h1, h2, h3, ?_, fun B hB => h5 B (by simp [hB])⟩
      intro x hx
      rcases List.mem_cons.1 hx with rfl | hx
      · exact ⟨block, h5 block (by simp), (b3 x).2 (.refl _)⟩
      · exact h4 x hx

theorem joined_mem_ns {p : SetPart L} (h : WF p) {x y : Int} (hxy : Joined p.blocks x y) :
    x ∈ p.nonSingletons ∧ y ∈ p.nonSingletons := by
  obtain ⟨B, hB, hx, hy⟩ := hxy
  exact ⟨h.mem_ns.2 ⟨B, hB, hx⟩, h.mem_ns.2 ⟨B, hB, hy⟩⟩

theorem chain_mem {p q : SetPart L} (hp : WF p) (hq : WF q) {x y : Int} (h : Chain p q x y) :
    x = y ∨ ((x ∈ p.nonSingletons ∨ x ∈ q.nonSingletons) ∧ (y ∈ p.nonSingletons ∨ y ∈ q.nonSingletons)) := by
  induction h with
  | rel u v huv =>
    rcases huv with huv | huv
    · exact Or.inr ⟨Or.inl (joined_mem_ns hp huv).1, Or.inl (joined_mem_ns hp huv).2⟩
    · exact Or.inr ⟨Or.inr (joined_mem_ns hq huv).1, Or.inr (joined_mem_ns hq huv).2⟩
  | refl u => exact Or.inl rfl
  | symm u v _ ih => exact ih.imp Eq.symm And.symm
  | trans u v w _ _ i1 i2 =>
    rcases i1 with rfl | ⟨h1, h2⟩
    · exact i2
    · rcases i2 with rfl | ⟨k1, k2⟩
      · exact Or.inr ⟨h1, h2⟩
      · exact Or.inr ⟨h1, k2⟩

theorem joinInOrder_ok {p q : SetPart L} (hp : WF p) (hq : WF q) (order : List Int)
    (ho : ∀ x, x ∈ order ↔ x ∈ p.nonSingletons ∨ x ∈ q.nonSingletons) :
    ∃ r, p.joinInOrder q order = .ok r ∧ WF r ∧ r.domain = .N ∧ r.blockLabels = [] ∧
      ∀ x y, Eqv r.blocks x y ↔ Chain p q x y := by
  have hin : ∀ e ∈ order, ∀ x, Chain p q e x → x ∈ order := by
    intro e he x hx
    rcases chain_mem hp hq hx with rfl | ⟨_, h⟩
    · exact he
    · exact (ho x).2 h
  obtain ⟨bs, h1, h2, h3, h4, _⟩ := joinElements_ok hp hq order hin order (fun x hx => hx) [] [] (by simp) (by simp) (by simp)
  unfold SetPart.joinInOrder
  rw [h1]
  simp only
  obtain ⟨r, k1, k2, k3, k4, k5⟩ := (C37_construction (L := L) bs .N).1 (noOverlap_iff.2 (nodup_filter_flatten h2 _))
  refine ⟨r, k1, k2, k3, k4, ?_⟩
  intro x y
  by_cases hxy : x = y
  · subst hxy; exact ⟨fun _ => .refl _, fun _ => Or.inl rfl⟩
  · have e : Eqv r.blocks x y ↔ Joined r.blocks x y := ⟨fun h => h.resolve_left hxy, Or.inr⟩
    rw [e, ← k2.pairInSameBlock, k5 x y hxy]
    constructor
    · rintro ⟨B, hB, hx, hy⟩
      exact (h3 B hB x hx y).1 hy
    · intro hc
      rcases chain_mem hp hq hc with h | ⟨h, _⟩
      · exact absurd h hxy
      · obtain ⟨B, hB, hx⟩ := h4 x ((ho x).2 h)
        exact ⟨B, hB, hx, (h3 B hB x hx y).2 hc⟩

theorem join_ok {p q : SetPart L} (hp : WF p) (hq : WF q) :
    ∃ r, p.join q = .ok r ∧ WF r ∧ r.domain = .N ∧ r.blockLabels = [] ∧ ∀ x y, Eqv r.blocks x y ↔ Chain p q x y :=
  joinInOrder_ok hp hq _ (fun x => by rw [List.mem_union_iff])

end Verif.SP
