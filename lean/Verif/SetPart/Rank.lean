import Verif.SetPart.Props2
import Mathlib.LinearAlgebra.FiniteDimensional.Lemmas
import Mathlib.LinearAlgebra.Dimension.Constructions

/-!
# Ranks in the lattice of partitions

The rank of a partition is the number of merges needed to make it: the sum of `len(block) - 1` over its blocks. `meet`,
`join`, `<=` and `merge_pair` are compared by ranks.

The proofs count classes on the finite set `X` of all elements in question: the functions from `X` to the rational numbers
that are constant on the blocks of a partition form a vector space whose dimension is the number of classes.
-/

namespace Verif.SP
open Verif.Py

variable {L : Type}

/-- The rank of a list of blocks (specification): the sum of `len(block) - 1`. -/
def rank (bs : List (List Int)) : Nat := (bs.map fun B => B.length - 1).sum

/-! ### Functions constant on classes -/

/-- The functions that are constant on the classes of `r`. -/
def constOn {α : Type} (r : Setoid α) : Submodule ℚ (α → ℚ) where
  carrier := {f | ∀ x y, r x y → f x = f y}
  add_mem' := by
    intro f g hf hg x y h
    simp only [Pi.add_apply, hf x y h, hg x y h]
  zero_mem' := fun _ _ _ => rfl
  smul_mem' := by
    intro c f hf x y h
    simp only [Pi.smul_apply, hf x y h]

theorem mem_constOn {α : Type} {r : Setoid α} {f : α → ℚ} : f ∈ constOn r ↔ ∀ x y, r x y → f x = f y := Iff.rfl

theorem finrank_constOn {α β : Type} [Fintype α] [Fintype β] (r : Setoid α) (rep : β → α)
    (hs : ∀ x, ∃ b, r (rep b) x) (hi : ∀ b c, r (rep b) (rep c) → b = c) :
    Module.finrank ℚ (constOn r) = Fintype.card β := by
  classical
  have hb : Function.Bijective (fun f : constOn r => fun b => f.1 (rep b)) := by
    constructor
    · intro f g h
      apply Subtype.ext
      funext x
      obtain ⟨b, hb⟩ := hs x
      rw [← f.2 _ _ hb, ← g.2 _ _ hb]
      exact congrFun h b
    · intro g
      choose c hc using hs
      refine ⟨⟨fun x => g (c x), ?_⟩, ?_⟩
      · intro x y h
        have : c x = c y := hi _ _ (r.trans (hc x) (r.trans h (r.symm (hc y))))
        simp only [this]
      · funext b
        have : c (rep b) = b := hi _ _ (hc (rep b))
        simp only [this]
  let e : constOn r ≃ₗ[ℚ] (β → ℚ) := LinearEquiv.ofBijective
    { toFun := fun f => fun b => f.1 (rep b), map_add' := fun _ _ => rfl, map_smul' := fun _ _ => rfl } hb
  rw [e.finrank_eq, Module.finrank_fintype_fun_eq_card]

/-! ### The classes of a partition -/

/-- The relation of a partition on a finite set. -/
def onSet {bs : List (List Int)} (h : Canon bs) (X : Finset Int) : Setoid X where
  r x y := Eqv bs x y
  iseqv :=
    ⟨fun x => (Eqv.equivalence h).refl x.1, fun h1 => (Eqv.equivalence h).symm h1,
      fun h1 h2 => (Eqv.equivalence h).trans h1 h2⟩

theorem onSet_apply {bs : List (List Int)} (h : Canon bs) (X : Finset Int) (x y : X) :
    onSet h X x y ↔ Eqv bs x y := Iff.rfl

/-- The elements that are not the first of their block. -/
def tails (bs : List (List Int)) : List Int := (bs.map List.tail).flatten

theorem tails_length (bs : List (List Int)) : (tails bs).length = rank bs := by
  simp [tails, rank, List.length_flatten, Function.comp_def]

theorem tails_sublist (bs : List (List Int)) : (tails bs).Sublist bs.flatten := by
  induction bs with
  | nil => exact List.Sublist.refl _
  | cons B bs ih =>
    simp only [tails, List.map_cons, List.flatten_cons]
    exact (List.tail_sublist B).append ih

theorem mem_tails {bs : List (List Int)} {x : Int} : x ∈ tails bs ↔ ∃ B ∈ bs, x ∈ B.tail := by
  simp [tails]

theorem head_not_tail {bs : List (List Int)} (h : Canon bs) {B : List Int} {a : Int} (hB : B ∈ bs) (ha : a ∈ B) :
    a ∉ tails bs ↔ B.head? = some a := by
  have hn := nodup_of_lt (h.lt B hB)
  rw [mem_tails]
  constructor
  · intro hc
    cases B with
    | nil => simp at ha
    | cons c B =>
      rcases List.mem_cons.1 ha with rfl | ha
      · rfl
      · exact absurd ⟨_, hB, ha⟩ hc
  · rintro hh ⟨C, hC, hc⟩
    have := h.unique hB hC ha (List.mem_of_mem_tail hc)
    subst this
    cases B with
    | nil => simp at ha
    | cons c B =>
      simp only [List.head?_cons, Option.some.injEq] at hh
      subst hh
      exact (List.nodup_cons.1 hn).1 hc

theorem classes {bs : List (List Int)} (h : Canon bs) (X : Finset Int) (hX : ∀ x ∈ bs.flatten, x ∈ X) :
    Module.finrank ℚ (constOn (onSet h X)) + rank bs = X.card := by
  classical
  have hT : (tails bs).Nodup := (tails_sublist bs).nodup h.nodup
  have hTX : (tails bs).toFinset ⊆ X := by
    intro x hx
    exact hX x ((tails_sublist bs).subset (List.mem_toFinset.1 hx))
  have hc := Finset.card_sdiff_add_card_eq_card hTX
  rw [List.toFinset_card_of_nodup hT, tails_length] at hc
  rw [← hc, finrank_constOn (onSet h X) (fun b : (X \ (tails bs).toFinset : Finset Int) =>
    (⟨b.1, (Finset.mem_sdiff.1 b.2).1⟩ : X)), Fintype.card_coe]
  · rintro ⟨x, hx⟩
    by_cases ht : x ∈ tails bs
    · obtain ⟨B, hB, hxB⟩ := mem_tails.1 ht
      have hxB' := List.mem_of_mem_tail hxB
      cases hh : B.head? with
      | none =>
        rw [List.head?_eq_none_iff] at hh
        exact absurd hh (h.ne_nil hB)
      | some a =>
        have haB : a ∈ B := List.mem_of_head? hh
        have ha := (head_not_tail h hB haB).2 hh
        refine ⟨⟨a, Finset.mem_sdiff.2 ⟨hX a (List.mem_flatten.2 ⟨B, hB, haB⟩), by simpa using ha⟩⟩, ?_⟩
        exact eqv_of_mem hB haB hxB'
    · exact ⟨⟨x, Finset.mem_sdiff.2 ⟨hx, by simpa using ht⟩⟩, Or.inl rfl⟩
  · rintro ⟨a, ha⟩ ⟨b, hb⟩ he
    have ha' : a ∉ tails bs := by simpa using (Finset.mem_sdiff.1 ha).2
    have hb' : b ∉ tails bs := by simpa using (Finset.mem_sdiff.1 hb).2
    apply Subtype.ext
    rcases he with he | ⟨B, hB, h1, h2⟩
    · exact he
    · have e1 := (head_not_tail h hB h1).1 ha'
      have e2 := (head_not_tail h hB h2).1 hb'
      rw [e1] at e2
      exact Option.some.inj e2

theorem constOn_le {α : Type} {r s : Setoid α} : constOn r ≤ constOn s ↔ ∀ x y, s x y → r x y := by
  classical
  constructor
  · intro h x y hs
    have hf : (fun z => if r x z then (1 : ℚ) else 0) ∈ constOn r := by
      intro u v huv
      have : r x u ↔ r x v := ⟨fun h => r.trans h huv, fun h => r.trans h (r.symm huv)⟩
      simp only [this]
    have := h hf x y hs
    simp only [r.refl x, if_true] at this
    by_contra hn
    simp [hn] at this
  · intro h f hf x y hs
    exact hf x y (h x y hs)

/-- Finer partitions have smaller ranks, and partitions of the same rank one of which refines the other are equal. -/
theorem rank_mono {bs cs : List (List Int)} (hb : Canon bs) (hc : Canon cs) (h : ∀ x y, Eqv bs x y → Eqv cs x y) :
    rank bs ≤ rank cs ∧ (rank bs = rank cs ↔ ∀ x y, Eqv cs x y → Eqv bs x y) := by
  classical
  let X := (bs.flatten ++ cs.flatten).toFinset
  have h1 := classes hb X (fun x hx => by simp [X, List.mem_flatten.1 hx])
  have h2 := classes hc X (fun x hx => by simp [X, List.mem_flatten.1 hx])
  have hle : constOn (onSet hc X) ≤ constOn (onSet hb X) := constOn_le.2 fun x y hxy => h _ _ hxy
  have h3 := Submodule.finrank_mono hle
  refine ⟨by omega, ?_, ?_⟩
  · intro he x y hxy
    have h4 := Submodule.eq_of_le_of_finrank_eq hle (by omega)
    rcases hxy with rfl | hj
    · exact Or.inl rfl
    · have hm : x ∈ X ∧ y ∈ X := by
        obtain ⟨B, hB, hx, hy⟩ := hj
        have : x ∈ cs.flatten ∧ y ∈ cs.flatten := ⟨List.mem_flatten.2 ⟨B, hB, hx⟩, List.mem_flatten.2 ⟨B, hB, hy⟩⟩
        simp only [X, List.mem_toFinset, List.mem_append]
        exact ⟨Or.inr this.1, Or.inr this.2⟩
      exact constOn_le.1 (le_of_eq h4.symm) ⟨x, hm.1⟩ ⟨y, hm.2⟩ (Or.inr hj)
  · intro hr
    have hle' : constOn (onSet hb X) ≤ constOn (onSet hc X) := constOn_le.2 fun x y hxy => hr _ _ hxy
    have h4 := Submodule.finrank_mono hle'
    omega

/-- An element of a block has a partner. -/
theorem mem_flatten_iff {bs : List (List Int)} (h : Canon bs) {x : Int} :
    x ∈ bs.flatten ↔ ∃ y, y ≠ x ∧ Eqv bs x y := by
  rw [List.mem_flatten]
  constructor
  · rintro ⟨B, hB, hx⟩
    obtain ⟨y, hy, hne⟩ := h.partner hB x
    exact ⟨y, hne, eqv_of_mem hB hx hy⟩
  · rintro ⟨y, hne, he | ⟨B, hB, hx, _⟩⟩
    · exact absurd he.symm hne
    · exact ⟨B, hB, hx⟩

/-- Elements connected by steps inside of blocks are equal or are all in blocks. -/
theorem steps_mem {bs cs : List (List Int)} {X : Int → Prop} (hp : ∀ x ∈ bs.flatten, X x) (hq : ∀ x ∈ cs.flatten, X x)
    {x y : Int} (h : Relation.EqvGen (fun u v => Joined bs u v ∨ Joined cs u v) x y) : x = y ∨ (X x ∧ X y) := by
  induction h with
  | rel u v h =>
    right
    rcases h with ⟨B, hB, h1, h2⟩ | ⟨B, hB, h1, h2⟩
    · exact ⟨hp _ (List.mem_flatten.2 ⟨B, hB, h1⟩), hp _ (List.mem_flatten.2 ⟨B, hB, h2⟩)⟩
    · exact ⟨hq _ (List.mem_flatten.2 ⟨B, hB, h1⟩), hq _ (List.mem_flatten.2 ⟨B, hB, h2⟩)⟩
  | refl u => exact Or.inl rfl
  | symm u v _ ih => rcases ih with rfl | ih; exacts [Or.inl rfl, Or.inr ih.symm]
  | trans u v w _ _ ih1 ih2 =>
    rcases ih1 with rfl | ih1
    · exact ih2
    · rcases ih2 with rfl | ih2
      · exact Or.inr ih1
      · exact Or.inr ⟨ih1.1, ih2.2⟩

/-- The inequality for any two lists of blocks that describe the intersection and the join. -/
theorem rank_semimodular {p q j m : List (List Int)} (hp : Canon p) (hq : Canon q) (hj : Canon j) (hm : Canon m)
    (ej : ∀ x y, Eqv j x y ↔ Relation.EqvGen (fun u v => Joined p u v ∨ Joined q u v) x y)
    (em : ∀ x y, Eqv m x y ↔ Eqv p x y ∧ Eqv q x y) :
    rank j + rank m ≤ rank p + rank q := by
  classical
  let X := (p.flatten ++ q.flatten).toFinset
  have hpX : ∀ x ∈ p.flatten, x ∈ X := fun x hx => List.mem_toFinset.2 (List.mem_append_left _ hx)
  have hqX : ∀ x ∈ q.flatten, x ∈ X := fun x hx => List.mem_toFinset.2 (List.mem_append_right _ hx)
  have h1 := classes hp X hpX
  have h2 := classes hq X hqX
  have h3 := classes hj X (fun x hx => by
    obtain ⟨y, hne, he⟩ := (mem_flatten_iff hj).1 hx
    rcases steps_mem (X := (· ∈ X)) hpX hqX ((ej x y).1 he) with h | h
    · exact absurd h.symm hne
    · exact h.1)
  have h4 := classes hm X (fun x hx => by
    obtain ⟨y, hne, he⟩ := (mem_flatten_iff hm).1 hx
    exact hpX x ((mem_flatten_iff hp).2 ⟨y, hne, ((em x y).1 he).1⟩))
  have hinf : constOn (onSet hp X) ⊓ constOn (onSet hq X) ≤ constOn (onSet hj X) := by
    rintro f ⟨hf1, hf2⟩ x y hxy
    let g : Int → ℚ := fun z => if h : z ∈ X then f ⟨z, h⟩ else 0
    have hg : ∀ u v, Relation.EqvGen (fun u v => Joined p u v ∨ Joined q u v) u v → g u = g v := by
      intro u v h
      induction h with
      | rel u v h =>
        rcases h with h | h
        · have hu : u ∈ X ∧ v ∈ X := by
            obtain ⟨B, hB, a, b⟩ := h
            exact ⟨hpX _ (List.mem_flatten.2 ⟨B, hB, a⟩), hpX _ (List.mem_flatten.2 ⟨B, hB, b⟩)⟩
          simp only [g, hu.1, hu.2, dite_true]
          exact hf1 _ _ (Or.inr h)
        · have hu : u ∈ X ∧ v ∈ X := by
            obtain ⟨B, hB, a, b⟩ := h
            exact ⟨hqX _ (List.mem_flatten.2 ⟨B, hB, a⟩), hqX _ (List.mem_flatten.2 ⟨B, hB, b⟩)⟩
          simp only [g, hu.1, hu.2, dite_true]
          exact hf2 _ _ (Or.inr h)
      | refl u => rfl
      | symm u v _ ih => exact ih.symm
      | trans u v w _ _ ih1 ih2 => exact ih1.trans ih2
    have := hg x.1 y.1 ((ej _ _).1 hxy)
    simpa only [g, x.2, y.2, dite_true, Subtype.coe_eta] using this
  have hsup : constOn (onSet hp X) ⊔ constOn (onSet hq X) ≤ constOn (onSet hm X) :=
    sup_le (constOn_le.2 fun x y h => ((em _ _).1 h).1) (constOn_le.2 fun x y h => ((em _ _).1 h).2)
  have h5 := Submodule.finrank_mono hinf
  have h6 := Submodule.finrank_mono hsup
  have h7 := Submodule.finrank_sup_add_finrank_inf_eq (constOn (onSet hp X)) (constOn (onSet hq X))
  omega

/-! ### C178 -/

/-- **C178.** Partitions of one domain: the ranks of join and meet are together at most those of the two partitions. -/
theorem C178_semimodular (p q : SetPart L) (hp : WF p) (hq : WF q) (hd : SameDomain p.domain q.domain) :
    ∃ j m, p.join q = .ok j ∧ p.meet q = .ok m ∧
      rank j.blocks + rank m.blocks ≤ rank p.blocks + rank q.blocks := by
  obtain ⟨j, e1, hj, _, _, ej⟩ := join_ok hp hq
  obtain ⟨m, e2, hm, _, _, em⟩ := meet_ok hp hq hd
  exact ⟨j, m, e1, e2, rank_semimodular hp.canon hq.canon hj.canon hm.canon ej em⟩

/-- **C178.** Join and meet lie above and below in rank, and each bound is met only by comparable partitions. -/
theorem C178_between (p q : SetPart L) (hp : WF p) (hq : WF q) (hd : SameDomain p.domain q.domain) :
    ∃ j m, p.join q = .ok j ∧ p.meet q = .ok m ∧
      rank m.blocks ≤ rank p.blocks ∧ rank p.blocks ≤ rank j.blocks ∧
      (rank m.blocks = rank p.blocks ↔
        ∀ a b, a ≠ b → p.pairInSameBlock a b = true → q.pairInSameBlock a b = true) ∧
      (rank p.blocks = rank j.blocks ↔
        ∀ a b, a ≠ b → q.pairInSameBlock a b = true → p.pairInSameBlock a b = true) := by
  obtain ⟨j, e1, hj, _, _, ej⟩ := join_ok hp hq
  obtain ⟨m, e2, hm, _, _, em⟩ := meet_ok hp hq hd
  obtain ⟨a1, a2⟩ := rank_mono hm.canon hp.canon fun x y h => ((em x y).1 h).1
  obtain ⟨b1, b2⟩ := rank_mono hp.canon hj.canon fun x y h => (ej x y).2 (chain_of_eqv_left h)
  have hpq : ∀ {p q : SetPart L}, WF p → WF q →
      ((∀ a b, a ≠ b → p.pairInSameBlock a b = true → q.pairInSameBlock a b = true) ↔
        ∀ x y, Eqv p.blocks x y → Eqv q.blocks x y) := by
    intro p q hp hq
    constructor
    · intro h x y he
      by_cases hxy : x = y
      · exact Or.inl hxy
      · exact Or.inr ((hq.pairInSameBlock x y).1 (h x y hxy ((hp.pairInSameBlock x y).2 (he.resolve_left hxy))))
    · intro h x y hxy he
      exact (hq.pairInSameBlock x y).2 ((h x y (Or.inr ((hp.pairInSameBlock x y).1 he))).resolve_left hxy)
  refine ⟨j, m, e1, e2, a1, b1, a2.trans ?_, b2.trans ?_⟩
  · rw [hpq hp hq]
    exact ⟨fun h x y he => ((em x y).1 (h x y he)).2, fun h x y he => (em x y).2 ⟨he, h x y he⟩⟩
  · rw [hpq hq hp]
    constructor
    · intro h x y he
      exact h x y ((ej x y).2 (chain_of_eqv_right he))
    · intro h x y he
      have hc := (ej x y).1 he
      have hE := Eqv.equivalence hp.canon
      clear he
      induction hc with
      | rel u v h' => exact h'.elim Or.inr fun h' => h u v (Or.inr h')
      | refl u => exact hE.refl u
      | symm u v _ ih => exact hE.symm ih
      | trans u v w _ _ ih1 ih2 => exact hE.trans ih1 ih2

/-- **C178.** For partitions of the natural numbers `p <= q` compares the ranks, and there is no partition of the rank of `q`
below `q` but `q`. -/
theorem C178_le (p q : SetPart L) (hp : WF p) (hq : WF q) (hpd : p.domain = .N) (hqd : q.domain = .N)
    (h : p.le q = .ok true) :
    rank p.blocks ≤ rank q.blocks ∧ (rank p.blocks = rank q.blocks ↔ p.eq q = .ok true) := by
  have hs : SameDomain p.domain q.domain := by rw [hpd, hqd]; trivial
  obtain ⟨r, e, hr⟩ := C41_le p q hp hq hpd hqd
  rw [h] at e
  cases e
  have hle := hr.1 rfl
  have hle' : ∀ x y, Eqv p.blocks x y → Eqv q.blocks x y := by
    intro x y he
    by_cases hxy : x = y
    · exact Or.inl hxy
    · exact Or.inr ((hq.pairInSameBlock x y).1 (hle x y hxy ((hp.pairInSameBlock x y).2 (he.resolve_left hxy))))
  obtain ⟨a1, a2⟩ := rank_mono hp.canon hq.canon hle'
  refine ⟨a1, a2.trans ?_⟩
  obtain ⟨r, e1, e2⟩ := (C37_equality p q hp hq).2 hs
  rw [e1]
  have : (Except.ok r : Except Err Bool) = .ok true ↔ r = true := by simp
  rw [this, e2]
  constructor
  · intro h2 a b hab
    rw [Bool.eq_iff_iff, eqv_iff_pair hp hab, eqv_iff_pair hq hab]
    exact ⟨hle' a b, h2 a b⟩
  · intro h2 x y he
    by_cases hxy : x = y
    · exact Or.inl hxy
    · rw [← eqv_iff_pair hp hxy, h2 x y hxy, eqv_iff_pair hq hxy]
      exact he

/-- **C178.** A successful `merge_pair` of elements in different blocks raises the rank by one, any other one leaves it. -/
theorem C178_merge [DecidableEq L] (p : SetPart L) (hp : WF p) (hl : p.blockLabels = []) (a b : Int) :
    rank (p.mergePair a b).2.blocks = rank p.blocks +
      (if (p.mergePair a b).1 = .ok () ∧ a ≠ b ∧ p.pairInSameBlock a b = false then 1 else 0) := by
  obtain ⟨q, hq, _, _, h1, h2⟩ := mergePair_plain hp hl a b
  by_cases hg : Good p.domain (a, b)
  · obtain ⟨e, hE⟩ := h1 hg
    rw [e]
    have hR := Eqv.equivalence hp.canon
    have hsub : ∀ x y, Eqv p.blocks x y → Eqv q.blocks x y := by
      intro x y h
      rw [hE, ← mergeRel_closure hR]
      exact Or.inl h
    obtain ⟨a1, a2⟩ := rank_mono hp.canon hq.canon hsub
    by_cases hab : Eqv p.blocks a b
    · rw [if_neg]
      · symm
        refine a2.2 fun x y h => ?_
        rw [hE, ← mergeRel_closure hR] at h
        rcases h with h | ⟨h, h'⟩ | ⟨h, h'⟩
        · exact h
        · exact hR.trans h (hR.trans hab h')
        · exact hR.trans h (hR.trans (hR.symm hab) h')
      · rintro ⟨_, hne, hf⟩
        rw [(eqv_iff_pair hp hne).2 hab] at hf
        cases hf
    · have hne : a ≠ b := fun h => hab (Or.inl h)
      have hf : p.pairInSameBlock a b = false := by
        rw [← Bool.not_eq_true, eqv_iff_pair hp hne]
        exact hab
      rw [if_pos ⟨rfl, hne, hf⟩]
      have hlt : rank p.blocks ≠ rank q.blocks := by
        intro h
        refine hab (a2.1 h a b ?_)
        rw [hE, ← mergeRel_closure hR]
        exact Or.inr (Or.inl ⟨hR.refl a, hR.refl b⟩)
      have hj : ∀ x y, Joined [[min a b, max a b]] x y ↔ (x = a ∨ x = b) ∧ (y = a ∨ y = b) := by
        intro x y
        simp only [Joined, exists_eq_left, List.mem_cons, List.not_mem_nil, or_false]
        omega
      have hc : Canon [[min a b, max a b]] := by
        refine ⟨by simp, ?_, by simp, ?_⟩
        · simp; omega
        · simp; omega
      have hc0 : Canon [] := ⟨by simp, by simp, by simp, by simp⟩
      have := rank_semimodular hp.canon hc hq.canon hc0 (fun x y => ?_) (fun x y => ?_)
      · have e1 : rank [[min a b, max a b]] = 1 := rfl
        have e0 : rank [] = 0 := rfl
        show rank q.blocks = _
        omega
      · rw [hE, ← mergeRel_closure hR]
        constructor
        · have hp' : ∀ {u v}, Eqv p.blocks u v →
              Relation.EqvGen (fun u v => Joined p.blocks u v ∨ Joined [[min a b, max a b]] u v) u v := by
            rintro u v (rfl | h)
            · exact .refl _
            · exact .rel _ _ (Or.inl h)
          have hab' : Relation.EqvGen (fun u v => Joined p.blocks u v ∨ Joined [[min a b, max a b]] u v) a b :=
            .rel _ _ (Or.inr ((hj a b).2 ⟨Or.inl rfl, Or.inr rfl⟩))
          rintro (h | ⟨h, h'⟩ | ⟨h, h'⟩)
          · exact hp' h
          · exact (hp' h).trans _ _ _ (hab'.trans _ _ _ (hp' h'))
          · exact (hp' h).trans _ _ _ ((hab'.symm _ _).trans _ _ _ (hp' h'))
        · intro h
          rw [mergeRel_closure hR, ← hE]
          have hQ := Eqv.equivalence hq.canon
          have habq : Eqv q.blocks a b := by
            rw [hE, ← mergeRel_closure hR]
            exact Or.inr (Or.inl ⟨hR.refl a, hR.refl b⟩)
          induction h with
          | rel u v h =>
            rcases h with h | h
            · exact hsub u v (Or.inr h)
            · rcases (hj u v).1 h with ⟨rfl | rfl, rfl | rfl⟩
              · exact hQ.refl _
              · exact habq
              · exact hQ.symm habq
              · exact hQ.refl _
          | refl u => exact hQ.refl u
          | symm u v _ ih => exact hQ.symm ih
          | trans u v w _ _ ih1 ih2 => exact hQ.trans ih1 ih2
      · constructor
        · rintro (rfl | ⟨B, hB, _⟩)
          · exact ⟨hR.refl _, Or.inl rfl⟩
          · simp at hB
        · rintro ⟨h, rfl | h'⟩
          · exact Or.inl rfl
          · rcases (hj x y).1 h' with ⟨rfl | rfl, rfl | rfl⟩
            · exact Or.inl rfl
            · exact absurd h hab
            · exact absurd (hR.symm h) hab
            · exact Or.inl rfl
  · obtain ⟨e, rfl⟩ := h2 hg
    rw [e]
    simp

example : (do
    let p ← newPart (L := Nat) [[1, 2], [3, 4]]
    let q ← newPart [[2, 3], [4, 1]]
    let j ← p.join q
    let m ← p.meet q
    pure (rank p.blocks, rank q.blocks, rank j.blocks, rank m.blocks)) = .ok (2, 2, 3, 0) := by decide +kernel
example : (do
    let p ← newPart (L := Nat) [[1, 2], [3, 4]]
    let q ← newPart [[1, 2, 3, 4]]
    let r ← p.le q
    pure (r, rank p.blocks, rank q.blocks)) = .ok (true, 2, 3) := by decide +kernel
example : (do
    let p ← newPart (L := Nat) [[1, 2], [3, 4]]
    pure (rank (p.mergePair 1 4).2.blocks, rank (p.mergePair 1 2).2.blocks, rank (p.mergePair 1 (-4)).2.blocks,
      rank (p.mergePair 1 7).2.blocks)) = .ok (3, 2, 2, 3) := by decide +kernel

end Verif.SP
