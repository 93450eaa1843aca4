import Verif.SetPart.Props2

/-!
# C40: the improved prototype of join

`_join_prototype_improved` keeps only the smallest element of each block of the meet, joins what is left, and puts the
others back.
-/

namespace Verif.SP
open Verif.Py

variable {L : Type}

theorem foldl_min_of_le (l : List Int) (x : Int) (h : ∀ y ∈ l, x ≤ y) : l.foldl min x = x := by
  induction l with
  | nil => rfl
  | cons y l ih =>
    rw [List.foldl_cons, min_eq_left (h y (by simp))]
    exact ih (fun z hz => h z (by simp [hz]))

theorem foldl_min_head {B : List Int} (h : B.Pairwise (· < ·)) : B.foldl min (B.headD 0) = B.headD 0 := by
  apply foldl_min_of_le
  intro y hy
  cases B with
  | nil => cases hy
  | cons x l =>
    rcases List.mem_cons.1 hy with rfl | hy
    · exact le_refl _
    · exact le_of_lt ((List.pairwise_cons.1 h).1 y hy)

theorem headD_mem {B : List Int} (h : B ≠ []) : B.headD 0 ∈ B := by
  cases B with
  | nil => exact absurd rfl h
  | cons x l => simp

/-- the smallest element of the block of `x` -/
def SetPart.rep (m : SetPart L) (x : Int) : Int := (m.elementToBlock x).headD 0

section rep
variable {m : SetPart L} (hm : WF m)
include hm

theorem elementToBlock_ne_nil (x : Int) : m.elementToBlock x ≠ [] :=
  List.ne_nil_of_mem ((hm.mem_elementToBlock x x).2 (Or.inl rfl))

theorem rep_eqv (x : Int) : Eqv m.blocks x (m.rep x) := by
  have h := (hm.mem_elementToBlock x (m.rep x)).1 (headD_mem (elementToBlock_ne_nil hm x))
  exact h.imp_left Eq.symm

theorem rep_congr {x y : Int} (h : Eqv m.blocks x y) : m.rep x = m.rep y := by
  unfold SetPart.rep
  rw [(hm.elementToBlock_eq x y).2 h]

theorem rep_rep (x : Int) : m.rep (m.rep x) = m.rep x := (rep_congr hm (rep_eqv hm x)).symm

theorem rep_of_block {B : List Int} (hB : B ∈ m.blocks) {x : Int} (hx : x ∈ B) : m.rep x = B.headD 0 := by
  unfold SetPart.rep
  rw [hm.elementToBlock_of_mem hB hx]

omit hm in
theorem rep_single {x : Int} (hx : x ∉ m.nonSingletons) : m.rep x = x := by
  unfold SetPart.rep
  rw [WF.elementToBlock_of_not_mem hx]
  rfl

end rep

/-- the elements removed in lines 26-31 of the prototype -/
def trashOf (m : SetPart L) : List Int :=
  m.blocks.flatMap (fun block => block.filter (fun e => e ≠ block.foldl min (block.headD 0)))

/-- the dictionary of lines 26-31 -/
def repToTrashOf (m : SetPart L) : Dict Int (List Int) :=
  Dict.ofPairs (m.blocks.map (fun block =>
    let rep := block.foldl min (block.headD 0)
    (rep, block.filter (fun e => e ≠ rep))))

theorem mem_trashOf {m : SetPart L} (hm : WF m) {x : Int} : x ∈ trashOf m ↔ m.rep x ≠ x := by
  unfold trashOf
  rw [List.mem_flatMap]
  constructor
  · rintro ⟨B, hB, hx⟩
    rw [List.mem_filter, foldl_min_head (hm.canon.lt B hB)] at hx
    rw [rep_of_block hm hB hx.1]
    simpa using fun h => hx.2 |> fun h' => by simp [h] at h'
  · intro hx
    by_cases hn : x ∈ m.nonSingletons
    · obtain ⟨B, hB, hxB⟩ := hm.mem_ns.1 hn
      refine ⟨B, hB, ?_⟩
      rw [List.mem_filter, foldl_min_head (hm.canon.lt B hB)]
      rw [rep_of_block hm hB hxB] at hx
      exact ⟨hxB, by simpa using fun h : x = _ => hx h.symm⟩
    · exact absurd (rep_single hn) hx

theorem get_repToTrashOf {m : SetPart L} (hm : WF m) {x e : Int} :
    x ∈ ((repToTrashOf m).get? e).getD [] ↔ x ≠ e ∧ m.rep x = e := by
  have hkeys : (Dict.keys (m.blocks.map (fun block =>
      let rep := block.foldl min (block.headD 0)
      (rep, block.filter (fun e => e ≠ rep))))).Nodup := by
    unfold Dict.keys
    rw [List.map_map]
    refine List.Nodup.map_on ?_ hm.canon.nodup_blocks
    intro B hB C hC h
    simp only [Function.comp] at h
    rw [foldl_min_head (hm.canon.lt B hB), foldl_min_head (hm.canon.lt C hC)] at h
    have h1 := headD_mem (hm.canon.ne_nil hB)
    have h2 := headD_mem (hm.canon.ne_nil hC)
    rw [← h] at h2
    exact hm.canon.unique hB hC h1 h2
  have hget : ∀ l, (repToTrashOf m).get? e = some l ↔ ∃ B ∈ m.blocks, B.headD 0 = e ∧ l = B.filter (fun x => x ≠ e) := by
    intro l
    unfold repToTrashOf
    rw [Dict.ofPairs_of_nodup hkeys, Dict.get?_iff_mem hkeys, List.mem_map]
    constructor
    · rintro ⟨B, hB, h⟩
      simp only [Prod.mk.injEq] at h
      rw [foldl_min_head (hm.canon.lt B hB)] at h
      refine ⟨B, hB, h.1, ?_⟩
      rw [← h.2, h.1]
    · rintro ⟨B, hB, h1, h2⟩
      refine ⟨B, hB, ?_⟩
      simp only [Prod.mk.injEq]
      rw [foldl_min_head (hm.canon.lt B hB)]
      exact ⟨h1, by rw [h2, h1]⟩
  constructor
  · intro h
    cases hg : (repToTrashOf m).get? e with
    | none => rw [hg] at h; simp at h
    | some l =>
      rw [hg] at h
      obtain ⟨B, hB, h1, h2⟩ := (hget l).1 hg
      simp only [Option.getD_some] at h
      rw [h2, List.mem_filter] at h
      exact ⟨by simpa using h.2, by rw [rep_of_block hm hB h.1, h1]⟩
  · rintro ⟨h1, h2⟩
    have hn : x ∈ m.nonSingletons := by
      by_contra hn
      rw [rep_single hn] at h2
      exact h1 h2
    obtain ⟨B, hB, hxB⟩ := hm.mem_ns.1 hn
    rw [rep_of_block hm hB hxB] at h2
    rw [(hget _).2 ⟨B, hB, h2, rfl⟩, Option.getD_some, List.mem_filter]
    exact ⟨hxB, by simpa using h1⟩

/-- the blocks without the removed elements (lines 33-34) -/
def cleaned (trash : List Int) (p : SetPart L) : List (List Int) :=
  p.blocks.map (fun block => sortZ ((pySet block).filter (fun e => ! trash.contains e)))

theorem mem_cleaned_block {trash B : List Int} {x : Int} :
    x ∈ sortZ ((pySet B).filter (fun e => ! trash.contains e)) ↔ x ∈ B ∧ x ∉ trash := by
  rw [mem_sortZ, List.mem_filter, mem_pySet]
  simp

theorem pairwise_disjoint_map {bs : List (List Int)} (f : List Int → List Int) (g : Int → Int)
    (h : bs.Pairwise List.Disjoint) (hf : ∀ B ∈ bs, ∀ x ∈ f B, g x ∈ B) : (bs.map f).Pairwise List.Disjoint := by
  rw [List.pairwise_map]
  refine h.imp_of_mem ?_
  intro B C hB hC hd x hx hx'
  exact hd (hf B hB x hx) (hf C hC x hx')

theorem cleaned_ok {p : SetPart L} (hp : WF p) (trash : List Int) :
    ∃ r : SetPart L, newPart (cleaned trash p) = .ok r ∧ WF r ∧ r.domain = .N ∧ PairsFresh r ∧
      ∀ a b, a ≠ b → (Joined r.blocks a b ↔ Joined p.blocks a b ∧ a ∉ trash ∧ b ∉ trash) := by
  have hn : NoOverlap (cleaned trash p) := by
    constructor
    · intro B hB _
      obtain ⟨C, hC, rfl⟩ := List.mem_map.1 hB
      exact ((sortZ_perm _).nodup_iff).2 ((nodup_pySet C).filter _)
    · refine List.Pairwise.filter _ ?_
      exact pairwise_disjoint_map _ id (List.nodup_flatten.1 hp.canon.nodup).2 (fun B _ x hx => (mem_cleaned_block.1 hx).1)
  obtain ⟨r, h1, h2, h3, h4, _, h6⟩ := init_ok (L := L) (d := .N) (l := []) (c := {}) (noOverlap_iff.1 hn)
  refine ⟨r, h1, h2, h4, Or.inl (by rw [h6]), fun a b hab => ?_⟩
  rw [h3, joined_cleanBlocks hab]
  constructor
  · rintro ⟨B, hB, ha, hb⟩
    obtain ⟨C, hC, rfl⟩ := List.mem_map.1 hB
    rw [mem_cleaned_block] at ha hb
    exact ⟨⟨C, hC, ha.1, hb.1⟩, ha.2, hb.2⟩
  · rintro ⟨⟨C, hC, ha, hb⟩, ha', hb'⟩
    exact ⟨_, List.mem_map_of_mem hC, mem_cleaned_block.2 ⟨ha, ha'⟩, mem_cleaned_block.2 ⟨hb, hb'⟩⟩

/-- `blocks_with_singletons` for a set of elements that contains all the non-singletons -/
theorem withSingletons_spec {p : SetPart L} (hp : WF p) (elements : List Int) :
    (p.withSingletons elements).Pairwise List.Disjoint ∧
    ∀ C, C ∈ p.withSingletons elements ↔ C ∈ p.blocks ∨ ∃ e ∈ elements, e ∉ p.nonSingletons ∧ C = [e] := by
  have hmem : ∀ C, C ∈ p.withSingletons elements ↔ C ∈ p.blocks ∨ ∃ e ∈ elements, e ∉ p.nonSingletons ∧ C = [e] := by
    intro C
    unfold SetPart.withSingletons
    rw [mem_sortL, List.mem_append, List.mem_map]
    refine or_congr Iff.rfl ?_
    constructor
    · rintro ⟨e, he, rfl⟩
      rw [List.mem_filter, mem_pySet] at he
      exact ⟨e, he.1, by simpa using he.2, rfl⟩
    · rintro ⟨e, he, hn, rfl⟩
      exact ⟨e, List.mem_filter.2 ⟨mem_pySet.2 he, by simpa using hn⟩, rfl⟩
  refine ⟨?_, hmem⟩
  unfold SetPart.withSingletons
  have hflat : (p.blocks ++ ((pySet elements).filter (fun e => ! p.nonSingletons.contains e)).map (fun e => [e])).flatten.Nodup := by
    rw [List.flatten_append, List.nodup_append']
    refine ⟨hp.canon.nodup, ?_, ?_⟩
    · rw [← List.flatMap_def]
      simpa using (nodup_pySet elements).filter _
    · intro x hx hx'
      obtain ⟨B, hB, hxB⟩ := List.mem_flatten.1 hx
      rw [← List.flatMap_def] at hx'
      simp only [List.flatMap_singleton', List.mem_filter] at hx'
      have := hp.mem_ns.2 ⟨B, hB, hxB⟩
      simp [this] at hx'
  have := (sortL_perm (p.blocks ++ ((pySet elements).filter (fun e => ! p.nonSingletons.contains e)).map (fun e => [e]))).flatten
  exact (List.nodup_flatten.1 (this.nodup_iff.2 hflat)).2

theorem joined_mem {p : SetPart L} (hp : WF p) {x y : Int} (h : Joined p.blocks x y) :
    x ∈ p.nonSingletons ∧ y ∈ p.nonSingletons := by
  obtain ⟨B, hB, hx, hy⟩ := h
  exact ⟨hp.mem_ns.2 ⟨B, hB, hx⟩, hp.mem_ns.2 ⟨B, hB, hy⟩⟩

theorem mem_joined {p : SetPart L} (hp : WF p) {x : Int} (h : x ∈ p.nonSingletons) : ∃ y, y ≠ x ∧ Joined p.blocks x y := by
  obtain ⟨B, hB, hx⟩ := hp.mem_ns.1 h
  obtain ⟨y, hy, hyx⟩ := hp.canon.partner hB x
  exact ⟨y, hyx, B, hB, hx, hy⟩

/-- **C40.** For natural numbers also the improved prototype gives the same blocks. -/
theorem C40_join_prototype_improved [DecidableEq L] (p q : SetPart L) (hp : WF p) (hq : WF q)
    (hd : SameDomain p.domain q.domain) (hpn : ∀ B ∈ p.blocks, ∀ x ∈ B, 0 ≤ x) (hqn : ∀ B ∈ q.blocks, ∀ x ∈ B, 0 ≤ x) :
    ∃ r s, p.join q = .ok r ∧ p.joinPrototypeImproved q = .ok s ∧ s.domain = p.domain ∧ WF s ∧ s.blocks = r.blocks := by
  obtain ⟨r, j1, j2, j3, _, j5⟩ := join_ok hp hq
  obtain ⟨m, m1, hm, _, _, m5⟩ := meet_ok hp hq hd
  obtain ⟨p', a1, hp', a3, a4, a5⟩ := cleaned_ok hp (trashOf m)
  obtain ⟨q', b1, hq', b3, b4, b5⟩ := cleaned_ok hq (trashOf m)
  have inp : ∀ (u u' : SetPart L), WF u → WF u' → (∀ B ∈ u.blocks, ∀ x ∈ B, 0 ≤ x) → u'.domain = .N →
      (∀ a b, a ≠ b → (Joined u'.blocks a b ↔ Joined u.blocks a b ∧ a ∉ trashOf m ∧ b ∉ trashOf m)) →
      ElementsInDomain u' := by
    intro u u' hu hu' hn hd h B hB x hx
    obtain ⟨y, hy, hyx⟩ := hu'.canon.partner hB x
    obtain ⟨C, hC, hxC, _⟩ := ((h x y hyx.symm).1 ⟨B, hB, hx, hy⟩).1
    rw [hd]
    exact hn C hC x hxC
  obtain ⟨_, s, e1, e2, e3, hs, e5⟩ := C40_join_prototype p' q' hp' hq' (by rw [a3, b3]; trivial)
    (inp p p' hp hp' hpn a3 a5) (inp q q' hq hq' hqn b3 b5) a4 b4
  obtain ⟨r', f1, f2, _, _, f5⟩ := join_ok hp' hq'
  rw [e1] at f1; cases f1
  have hs5 : ∀ x y, Eqv s.blocks x y ↔ Chain p' q' x y := by rw [e5]; exact f5
  -- the elements left
  let dom := (pySet p.blocks.flatten ∪ pySet q.blocks.flatten).filter (fun e => ! (trashOf m).contains e)
  have hdom : ∀ x, x ∈ dom ↔ (x ∈ p.nonSingletons ∨ x ∈ q.nonSingletons) ∧ m.rep x = x := by
    intro x
    have ht := mem_trashOf hm (x := x)
    rw [List.mem_filter, List.mem_union_iff, mem_pySet, mem_pySet, List.mem_flatten, List.mem_flatten, hp.mem_ns, hq.mem_ns]
    simp only [List.contains_eq_mem, Bool.not_eq_true', decide_eq_false_iff_not, ht, ne_eq, not_not]
  have hleft : ∀ (u u' : SetPart L), WF u → WF u' →
      (∀ a b, a ≠ b → (Joined u'.blocks a b ↔ Joined u.blocks a b ∧ a ∉ trashOf m ∧ b ∉ trashOf m)) →
      ∀ x ∈ u'.nonSingletons, x ∈ u.nonSingletons ∧ m.rep x = x := by
    intro u u' hu hu' h x hx
    obtain ⟨y, hyx, hxy⟩ := mem_joined hu' hx
    have h1 := (h x y hyx.symm).1 hxy
    have h2 := h1.2.1
    rw [mem_trashOf hm, not_not] at h2
    exact ⟨(joined_mem hu h1.1).1, h2⟩
  have hsub : ∀ x ∈ s.nonSingletons, x ∈ dom := by
    intro x hx
    obtain ⟨y, hyx, hxy⟩ := mem_joined hs hx
    rcases chain_mem hp' hq' ((hs5 x y).1 (Or.inr hxy)) with h | h
    · exact absurd h.symm hyx
    · rw [hdom]
      rcases h.1 with h | h
      · have := hleft p p' hp hp' a5 x h; exact ⟨Or.inl this.1, this.2⟩
      · have := hleft q q' hq hq' b5 x h; exact ⟨Or.inr this.1, this.2⟩
  obtain ⟨hdis, hmem⟩ := withSingletons_spec hs dom
  have hCdom : ∀ C ∈ s.withSingletons dom, ∀ x ∈ C, x ∈ dom := by
    intro C hC x hx
    rcases (hmem C).1 hC with h | ⟨e, he, _, rfl⟩
    · exact hsub x (hs.mem_ns.2 ⟨C, h, hx⟩)
    · rw [List.mem_singleton] at hx; rw [hx]; exact he
  -- the blocks with the others put back
  let dirty : List Int → List Int := fun block =>
    sortZ (pySet (block ++ block.flatMap (fun e => ((repToTrashOf m).get? e).getD [])))
  have hdirty : ∀ C ∈ s.withSingletons dom, ∀ x, x ∈ dirty C ↔ m.rep x ∈ C := by
    intro C hC x
    simp only [dirty]
    rw [mem_sortZ, mem_pySet, List.mem_append, List.mem_flatMap]
    constructor
    · rintro (h | ⟨e, he, h⟩)
      · rw [((hdom x).1 (hCdom C hC x h)).2]; exact h
      · rw [get_repToTrashOf hm] at h
        rw [h.2]; exact he
    · intro h
      by_cases hx : x = m.rep x
      · rw [← hx] at h; exact Or.inl h
      · exact Or.inr ⟨m.rep x, h, (get_repToTrashOf hm).2 ⟨hx, rfl⟩⟩
  have hno : NoOverlap ((s.withSingletons dom).map dirty) := by
    constructor
    · intro B hB _
      obtain ⟨C, _, rfl⟩ := List.mem_map.1 hB
      exact ((sortZ_perm _).nodup_iff).2 (nodup_pySet _)
    · refine List.Pairwise.filter _ ?_
      exact pairwise_disjoint_map _ m.rep hdis (fun B hB x hx => (hdirty B hB x).1 hx)
  obtain ⟨t, c1, c2, c3, _, c5⟩ := (C37_construction (L := L) ((s.withSingletons dom).map dirty) p.domain).1 hno
  have hrun : p.joinPrototypeImproved q = .ok t := by
    unfold SetPart.joinPrototypeImproved
    rw [m1]
    simp only [bind, Except.bind]
    have h1 : (newPart (p.blocks.map (fun block => sortZ ((pySet block).filter (fun e => ! (trashOf m).contains e))))
      : Except Err (SetPart L)) = .ok p' := a1
    have h2 : (newPart (q.blocks.map (fun block => sortZ ((pySet block).filter (fun e => ! (trashOf m).contains e))))
      : Except Err (SetPart L)) = .ok q' := b1
    have h3 : s.blocksWithSingletons { elements := some dom } = .ok (s.withSingletons dom) := by
      unfold SetPart.blocksWithSingletons
      simp only
      rw [if_pos]
      rw [List.all_eq_true]
      intro x hx
      rw [List.contains_iff_mem]
      exact hsub x hx
    simp only [trashOf] at h1 h2
    rw [h1]
    simp only
    rw [h2]
    simp only
    rw [e2]
    simp only
    have h4 : (pySet p.blocks.flatten ∪ pySet q.blocks.flatten).filter (fun e => ! (trashOf m).contains e) = dom := rfl
    simp only [trashOf] at h4
    rw [h4, h3]
    exact c1
  refine ⟨r, t, j1, hrun, c3, c2, ?_⟩
  apply Canon.ext c2.canon j2.canon
  intro a b hab
  have hmc : ∀ x, Chain p q x (m.rep x) := fun x => chain_of_eqv_left ((m5 _ _).1 (rep_eqv hm x)).1
  have hr : Joined r.blocks a b ↔ Chain p q a b := by
    rw [← j5]; exact ⟨Or.inr, fun h => h.resolve_left hab⟩
  rw [← c2.pairInSameBlock, c5 a b hab, hr]
  have hstep : ∀ (u u' : SetPart L), WF u → (∀ x y, Eqv m.blocks x y → Eqv u.blocks x y) →
      (∀ a b, a ≠ b → (Joined u'.blocks a b ↔ Joined u.blocks a b ∧ a ∉ trashOf m ∧ b ∉ trashOf m)) →
      ∀ x y, Joined u.blocks x y → Eqv u'.blocks (m.rep x) (m.rep y) := by
    intro u u' hu hmu h x y hxy
    by_cases he : m.rep x = m.rep y
    · exact Or.inl he
    · refine Or.inr ((h _ _ he).2 ⟨?_, ?_, ?_⟩)
      · have h1 := ((hmu x _ (rep_eqv hm x)).symm.trans hu.canon (Or.inr hxy)).trans hu.canon (hmu y _ (rep_eqv hm y))
        exact h1.resolve_left he
      · rw [mem_trashOf hm, not_not]; exact rep_rep hm x
      · rw [mem_trashOf hm, not_not]; exact rep_rep hm y
  constructor
  · rintro ⟨B, hB, ha, hb⟩
    obtain ⟨C, hC, rfl⟩ := List.mem_map.1 hB
    rw [hdirty C hC] at ha hb
    refine (hmc a).trans _ _ _ (.trans _ _ _ ?_ ((hmc b).symm _ _))
    rcases (hmem C).1 hC with h | ⟨e, _, _, rfl⟩
    · refine eqvGen_le ?_ ((hs5 _ _).1 (eqv_of_mem h ha hb))
      intro u v huv
      by_cases he : u = v
      · subst he; exact .refl _
      · rcases huv with huv | huv
        · exact .rel _ _ (Or.inl ((a5 u v he).1 huv).1)
        · exact .rel _ _ (Or.inr ((b5 u v he).1 huv).1)
    · rw [List.mem_singleton] at ha hb
      rw [ha, hb]; exact .refl _
  · intro h
    have hrep : Chain p' q' (m.rep a) (m.rep b) := by
      clear hab hr
      induction h with
      | rel u v huv =>
        rcases huv with huv | huv
        · exact chain_of_eqv_left (hstep p p' hp (fun x y h => ((m5 x y).1 h).1) a5 u v huv)
        · exact chain_of_eqv_right (hstep q q' hq (fun x y h => ((m5 x y).1 h).2) b5 u v huv)
      | refl u => exact .refl _
      | symm u v _ ih => exact ih.symm _ _
      | trans u v w _ _ i1 i2 => exact i1.trans _ _ _ i2
    have hadom : m.rep a ∈ dom := by
      rw [hdom]
      refine ⟨?_, rep_rep hm a⟩
      by_cases he : a = m.rep a
      · rw [← he]
        rcases chain_mem hp hq h with h | h
        · exact absurd h hab
        · exact h.1
      · exact Or.inl (joined_mem hp ((((m5 _ _).1 (rep_eqv hm a)).1).resolve_left he)).2
    have hC : ∃ C ∈ s.withSingletons dom, m.rep a ∈ C ∧ m.rep b ∈ C := by
      rcases (hs5 _ _).2 hrep with he | ⟨C, hC, h1, h2⟩
      · rw [← he]
        by_cases hn : m.rep a ∈ s.nonSingletons
        · obtain ⟨C, hC, hx⟩ := hs.mem_ns.1 hn
          exact ⟨C, (hmem C).2 (Or.inl hC), hx, hx⟩
        · exact ⟨[m.rep a], (hmem _).2 (Or.inr ⟨_, hadom, hn, rfl⟩), by simp, by simp⟩
      · exact ⟨C, (hmem C).2 (Or.inl hC), h1, h2⟩
    obtain ⟨C, hC, h1, h2⟩ := hC
    exact ⟨dirty C, List.mem_map_of_mem hC, (hdirty C hC a).2 h1, (hdirty C hC b).2 h2⟩

example : (do
    let p ← newPart (L := Nat) [[1, 2], [5, 6, 7], [10, 20, 30]]
    let q ← newPart [[1, 2], [4, 6, 9], [10, 11, 30]]
    let r ← p.joinPrototypeImproved q
    pure r.blocks) = .ok [[1, 2], [4, 5, 6, 7, 9], [10, 11, 20, 30]] := by decide

/-- Why the elements have to be natural numbers: the cleaned partitions are built with the default domain. -/
theorem C40_improved_negative :
    ∃ p q : SetPart Nat, newPart [[-1, 2]] .Z = .ok p ∧ newPart [[2, 3]] .Z = .ok q ∧
      p.joinPrototypeImproved q = .error .notInDomain := by
  refine ⟨_, _, rfl, rfl, ?_⟩
  decide

end Verif.SP
