import Verif.SetPart.Lattice

/-!
# C39, C40, C41: meet, join, order
-/

namespace Verif.SP
open Verif.Py

variable {L : Type}

theorem eqv_iff_pair {p : SetPart L} (h : WF p) {x y : Int} (hxy : x ≠ y) :
    p.pairInSameBlock x y = true ↔ Eqv p.blocks x y := by
  rw [h.pairInSameBlock]
  exact ⟨Or.inr, fun h => h.resolve_left hxy⟩

theorem sameDomain_refl (d : Domain) : SameDomain d d := by cases d <;> simp [SameDomain]

theorem sameDomain_symm {d e : Domain} (h : SameDomain d e) : SameDomain e d := by
  cases d <;> cases e <;> simp_all [SameDomain]

theorem eq_of_eqv {p q : SetPart L} (hp : WF p) (hq : WF q) (hd : SameDomain p.domain q.domain)
    (h : ∀ x y, Eqv p.blocks x y ↔ Eqv q.blocks x y) : p.eq q = .ok true := by
  obtain ⟨r, h1, h2⟩ := (C37_equality p q hp hq).2 hd
  rw [h1, h2.2 ?_]
  intro a b hab
  rw [Bool.eq_iff_iff, eqv_iff_pair hp hab, eqv_iff_pair hq hab, h]

theorem eqv_of_eq {p q : SetPart L} (h : p.eq q = .ok true) : p.blocks = q.blocks := by
  unfold SetPart.eq at h
  split at h
  · simpa using h
  · cases h

/-! ### C39 -/

/-- **C39.** `p.meet(q)` joins two different elements iff `p` and `q` do; it fails iff the domains differ. -/
theorem C39_meet (p q : SetPart L) (hp : WF p) (hq : WF q) :
    (SameDomain p.domain q.domain → ∃ r, p.meet q = .ok r ∧ WF r ∧ r.domain = p.domain ∧
      ∀ a b, a ≠ b → (r.pairInSameBlock a b = true ↔ p.pairInSameBlock a b = true ∧ q.pairInSameBlock a b = true)) ∧
    (¬ SameDomain p.domain q.domain → p.meet q = .error .domainsNotEqual) := by
  constructor
  · intro hd
    obtain ⟨r, h1, h2, h3, _, h5⟩ := meet_ok hp hq hd
    refine ⟨r, h1, h2, h3, fun a b hab => ?_⟩
    rw [eqv_iff_pair h2 hab, eqv_iff_pair hp hab, eqv_iff_pair hq hab, h5]
  · intro hd
    unfold SetPart.meet
    rw [if_pos]
    rw [Bool.not_eq_true', ← Bool.not_eq_true, domain_eq_iff]
    exact hd

example : (do
    let p ← newPart (L := Nat) [[0, 1, 2, 4], [5, 6, 9], [7, 8]]
    let q ← newPart [[0, 1], [2, 3, 4], [6, 8, 9]]
    let r ← p.meet q
    pure r.blocks) = .ok [[0, 1], [2, 4], [6, 9]] := by decide

/-- `pairs` has not been read before the last change (a cached value may be out of date, see C42). -/
def PairsFresh (p : SetPart L) : Prop := p.cache.pairs = none ∨ p.cache.pairs = some p.computePairs

theorem pairs_fresh {p : SetPart L} (h : PairsFresh p) : p.pairs.1 = p.computePairs := by
  unfold SetPart.pairs
  rcases h with h | h <;> rw [h]

/-- all elements of blocks are in the domain -/
def ElementsInDomain (p : SetPart L) : Prop := ∀ B ∈ p.blocks, ∀ x ∈ B, InDomain p.domain x

theorem joined_in_domain {p : SetPart L} (h : ElementsInDomain p) {x y : Int} (hxy : Joined p.blocks x y) :
    InDomain p.domain x ∧ InDomain p.domain y := by
  obtain ⟨B, hB, hx, hy⟩ := hxy
  exact ⟨h B hB x hx, h B hB y hy⟩

theorem inDomain_congr {d e : Domain} (h : SameDomain d e) (x : Int) : InDomain d x ↔ InDomain e x := by
  cases d <;> cases e <;> simp_all [SameDomain, InDomain]

/-- merging pairs into the finest partition -/
theorem mergeAll_ok [DecidableEq L] (d : Domain) (pairs : List (Int × Int)) (hg : ∀ ab ∈ pairs, Good d ab) :
    ∃ r : SetPart L, mergeAll (newPart [] d) pairs = .ok r ∧ WF r ∧ r.domain = d ∧
      ∀ x y, Eqv r.blocks x y ↔ Closure Eq pairs x y := by
  have h0 : (newPart [] d : Except Err (SetPart L)) = .ok (setTrivial d {}) := rfl
  have hw := wf_setTrivial (L := L) d {}
  obtain ⟨q, h1, h2, h3, h4, h5, _, h7⟩ := mergePairs_plain pairs hw rfl
  have h5 := h5 hg
  refine ⟨q, ?_, h1, h2, ?_⟩
  · unfold mergeAll
    rw [h0]
    simp only
    rw [show (setTrivial d {} : SetPart L).mergePairs pairs = (.ok (), q) from Prod.ext h5 h4]
  · intro x y
    rw [h7]
    have ht : pairs.takeWhile (fun ab => decide (Good (setTrivial d {} : SetPart L).domain ab)) = pairs := by
      have hall : ∀ l : List (Int × Int), (∀ ab ∈ l, Good d ab) →
          l.takeWhile (fun ab => decide (Good (setTrivial d {} : SetPart L).domain ab)) = l := by
        intro l
        induction l with
        | nil => intro _; rfl
        | cons a t ih =>
          intro h
          have ha : Good (setTrivial d {} : SetPart L).domain a := h a (by simp)
          rw [List.takeWhile_cons, if_pos (by simpa using ha), ih (fun ab hab => h ab (by simp [hab]))]
      exact hall pairs hg
    rw [ht]
    apply closure_congr
    intro u v
    exact eqv_single (by simp [setTrivial])

/-- **C39.** The prototype that merges the common pairs gives the same partition. -/
theorem C39_meet_prototype [DecidableEq L] (p q : SetPart L) (hp : WF p) (hq : WF q) (hd : SameDomain p.domain q.domain)
    (hpd : ElementsInDomain p) (hpf : PairsFresh p) (hqf : PairsFresh q) :
    ∃ r s, p.meet q = .ok r ∧ p.meetPrototype q = .ok s ∧ s.eq r = .ok true := by
  obtain ⟨r, h1, h2, h3, _, h5⟩ := meet_ok hp hq hd
  unfold SetPart.meetPrototype
  rw [if_neg (by rw [(domain_eq_iff _ _).2 hd]; simp), pairs_fresh hpf, pairs_fresh hqf]
  obtain ⟨s, k1, k2, k3, k4⟩ := mergeAll_ok (L := L) p.domain (p.computePairs.filter (q.computePairs.contains ·)) (by
    rintro ⟨a, b⟩ hab
    have := (mem_computePairs hp).1 (List.mem_of_mem_filter hab)
    exact Or.inr (joined_in_domain hpd this.2))
  refine ⟨r, s, h1, k1, eq_of_eqv k2 h2 (by rw [h3, k3]; exact sameDomain_refl _) (fun x y => ?_)⟩
  rw [k4, h5]
  have hpair : ∀ u v, (u, v) ∈ p.computePairs.filter (q.computePairs.contains ·) ↔
      u < v ∧ Joined p.blocks u v ∧ Joined q.blocks u v := by
    intro u v
    rw [List.mem_filter, List.contains_iff_mem, mem_computePairs hp, mem_computePairs hq]
    tauto
  constructor
  · intro h
    have he : Equivalence (fun u v => Eqv p.blocks u v ∧ Eqv q.blocks u v) :=
      ⟨fun _ => ⟨Or.inl rfl, Or.inl rfl⟩, fun h => ⟨h.1.symm, h.2.symm⟩,
        fun h k => ⟨h.1.trans hp.canon k.1, h.2.trans hq.canon k.2⟩⟩
    induction h with
    | rel u v h =>
      rcases h with rfl | h
      · exact he.refl _
      · exact ⟨Or.inr ((hpair u v).1 h).2.1, Or.inr ((hpair u v).1 h).2.2⟩
    | refl u => exact he.refl u
    | symm u v _ ih => exact he.symm ih
    | trans u v w _ _ i1 i2 => exact he.trans i1 i2
  · rintro ⟨hx, hy⟩
    by_cases hxy : x = y
    · subst hxy; exact .refl _
    · have hx := hx.resolve_left hxy
      have hy := hy.resolve_left hxy
      rcases lt_or_gt_of_ne hxy with h | h
      · exact .rel _ _ (Or.inr ((hpair x y).2 ⟨h, hx, hy⟩))
      · exact .symm _ _ (.rel _ _ (Or.inr ((hpair y x).2 ⟨h, Canon.symm hx, Canon.symm hy⟩)))

example : (do
    let p ← newPart (L := Nat) [[0, 1, 2, 4], [5, 6, 9], [7, 8]]
    let q ← newPart [[0, 1], [2, 3, 4], [6, 8, 9]]
    let r ← p.meetPrototype q
    pure r.blocks) = .ok [[0, 1], [2, 4], [6, 9]] := by decide

/-! ### C40 -/

/-- **C40.** `p.join(q)` joins two different elements iff they are connected by a chain of blocks of `p` and `q`.  It never
fails, in whatever order the set of elements is traversed, and its domain is always `'N'`. -/
theorem C40_join (p q : SetPart L) (hp : WF p) (hq : WF q) (order : List Int)
    (ho : ∀ x, x ∈ order ↔ x ∈ p.nonSingletons ∨ x ∈ q.nonSingletons) :
    ∃ r, p.joinInOrder q order = .ok r ∧ WF r ∧ r.domain = .N ∧ ∀ a b, a ≠ b → (r.pairInSameBlock a b = true ↔
      Relation.EqvGen (fun u v => p.pairInSameBlock u v = true ∨ q.pairInSameBlock u v = true) a b) := by
  obtain ⟨r, h1, h2, h3, _, h5⟩ := joinInOrder_ok hp hq order ho
  refine ⟨r, h1, h2, h3, fun a b hab => ?_⟩
  rw [eqv_iff_pair h2 hab, h5]
  simp only [hp.pairInSameBlock, hq.pairInSameBlock]
  rfl

/-- The elements that are traversed are those in blocks. -/
theorem C40_traversed (p : SetPart L) (hp : WF p) (x : Int) :
    x ∈ p.nonSingletons ↔ ∃ y, y ≠ x ∧ p.pairInSameBlock x y = true := by
  rw [hp.mem_ns]
  constructor
  · rintro ⟨B, hB, hx⟩
    obtain ⟨y, hy, hyx⟩ := hp.canon.partner hB x
    exact ⟨y, hyx, (hp.pairInSameBlock x y).2 ⟨B, hB, hx, hy⟩⟩
  · rintro ⟨y, _, h⟩
    obtain ⟨B, hB, hx, _⟩ := (hp.pairInSameBlock x y).1 h
    exact ⟨B, hB, hx⟩

example : (do
    let p ← newPart (L := Nat) [[1, 2], [5, 6, 7], [10, 20, 30]]
    let q ← newPart [[1, 2], [4, 6, 9], [10, 11, 30]]
    let r ← p.join q
    pure r.blocks) = .ok [[1, 2], [4, 5, 6, 7, 9], [10, 11, 20, 30]] := by decide

/-- The domain gets lost: the join of partitions of the integers is a partition of the natural numbers with a negative
element. -/
theorem C40_domain_lost :
    ∃ p q r : SetPart Nat, newPart [[-1, 2]] .Z = .ok p ∧ newPart [[2, 3]] .Z = .ok q ∧ p.join q = .ok r ∧
      r.domain = .N ∧ r.pairInSameBlock (-1) 3 = true ∧ r.eq p = .error .domainsNotEqual := by
  refine ⟨_, _, _, rfl, rfl, rfl, ?_⟩
  decide

/-- **C40.** The prototype that merges all pairs gives the same blocks. -/
theorem C40_join_prototype [DecidableEq L] (p q : SetPart L) (hp : WF p) (hq : WF q) (hd : SameDomain p.domain q.domain)
    (hpd : ElementsInDomain p) (hqd : ElementsInDomain q) (hpf : PairsFresh p) (hqf : PairsFresh q) :
    ∃ r s, p.join q = .ok r ∧ p.joinPrototype q = .ok s ∧ s.domain = p.domain ∧ WF s ∧ s.blocks = r.blocks := by
  obtain ⟨r, h1, h2, h3, _, h5⟩ := join_ok hp hq
  unfold SetPart.joinPrototype
  rw [if_neg (by rw [(domain_eq_iff _ _).2 hd]; simp), pairs_fresh hpf, pairs_fresh hqf]
  obtain ⟨s, k1, k2, k3, k4⟩ := mergeAll_ok (L := L) p.domain (p.computePairs ∪ q.computePairs) (by
    rintro ⟨a, b⟩ hab
    rcases List.mem_union_iff.1 hab with hab | hab
    · exact Or.inr (joined_in_domain hpd ((mem_computePairs hp).1 hab).2)
    · have := joined_in_domain hqd ((mem_computePairs hq).1 hab).2
      exact Or.inr ⟨(inDomain_congr hd a).2 this.1, (inDomain_congr hd b).2 this.2⟩)
  refine ⟨r, s, h1, k1, k3, k2, ?_⟩
  apply Canon.ext k2.canon h2.canon
  intro x y hxy
  rw [← k2.pairInSameBlock, ← h2.pairInSameBlock, eqv_iff_pair k2 hxy, eqv_iff_pair h2 hxy, k4, h5]
  have hpair : ∀ u v, (u, v) ∈ p.computePairs ∪ q.computePairs ↔ u < v ∧ (Joined p.blocks u v ∨ Joined q.blocks u v) := by
    intro u v
    rw [List.mem_union_iff, mem_computePairs hp, mem_computePairs hq]
    tauto
  constructor
  · apply eqvGen_le
    rintro u v (rfl | h)
    · exact .refl _
    · exact .rel _ _ ((hpair u v).1 h).2
  · apply eqvGen_le
    intro u v h
    rcases lt_trichotomy u v with huv | rfl | huv
    · exact .rel _ _ (Or.inr ((hpair u v).2 ⟨huv, h⟩))
    · exact .refl _
    · exact .symm _ _ (.rel _ _ (Or.inr ((hpair v u).2 ⟨huv, h.imp Canon.symm Canon.symm⟩)))

example : (do
    let p ← newPart (L := Nat) [[1, 2], [5, 6, 7], [10, 20, 30]]
    let q ← newPart [[1, 2], [4, 6, 9], [10, 11, 30]]
    let r ← p.joinPrototype q
    pure r.blocks) = .ok [[1, 2], [4, 5, 6, 7, 9], [10, 11, 20, 30]] := by decide

/-! ### C41 -/

theorem chain_iff_right {p q : SetPart L} (hq : WF q) :
    (∀ x y, Chain p q x y ↔ Eqv q.blocks x y) ↔ ∀ x y, Joined p.blocks x y → Eqv q.blocks x y := by
  constructor
  · intro h x y hxy
    exact (h x y).1 (.rel _ _ (Or.inl hxy))
  · intro h x y
    constructor
    · intro hc
      have he := Eqv.equivalence hq.canon
      induction hc with
      | rel u v huv =>
        rcases huv with huv | huv
        · exact h u v huv
        · exact Or.inr huv
      | refl u => exact he.refl u
      | symm u v _ ih => exact he.symm ih
      | trans u v w _ _ i1 i2 => exact he.trans i1 i2
    · exact chain_of_eqv_right

/-- **C41.** For partitions of the natural numbers, `p <= q` iff `p` refines `q`. -/
theorem C41_le (p q : SetPart L) (hp : WF p) (hq : WF q) (hpd : p.domain = .N) (hqd : q.domain = .N) :
    ∃ r, p.le q = .ok r ∧
      (r = true ↔ ∀ a b, a ≠ b → p.pairInSameBlock a b = true → q.pairInSameBlock a b = true) := by
  obtain ⟨j, h1, h2, h3, _, h5⟩ := join_ok hp hq
  unfold SetPart.le
  rw [if_neg (by rw [hpd, hqd]; decide), h1]
  simp only
  obtain ⟨r, e1, e2⟩ := (C37_equality j q h2 hq).2 (by rw [h3, hqd]; trivial)
  refine ⟨r, e1, e2.trans ?_⟩
  have hiff : (∀ a b, a ≠ b → j.pairInSameBlock a b = q.pairInSameBlock a b) ↔
      ∀ x y, Chain p q x y ↔ Eqv q.blocks x y := by
    constructor
    · intro h x y
      rw [← h5]
      by_cases hxy : x = y
      · exact ⟨fun _ => Or.inl hxy, fun _ => Or.inl hxy⟩
      · rw [← eqv_iff_pair h2 hxy, ← eqv_iff_pair hq hxy, h x y hxy]
    · intro h a b hab
      rw [Bool.eq_iff_iff, eqv_iff_pair h2 hab, eqv_iff_pair hq hab, h5, h]
  rw [hiff, chain_iff_right hq]
  constructor
  · intro h a b hab hp'
    exact (eqv_iff_pair hq hab).2 (h a b ((hp.pairInSameBlock a b).1 hp'))
  · intro h x y hxy
    by_cases he : x = y
    · exact Or.inl he
    · exact (eqv_iff_pair hq he).1 (h x y he ((hp.pairInSameBlock x y).2 hxy))

/-- For all other domains `p <= q` always raises `DomainsNotEqualError`, even for equal domains (because of
`C40_domain_lost`). -/
theorem C41_le_other_domains (p q : SetPart L) (hp : WF p) (hq : WF q) (h : p.domain ≠ .N ∨ q.domain ≠ .N) :
    p.le q = .error .domainsNotEqual := by
  unfold SetPart.le
  by_cases hd : SameDomain p.domain q.domain
  · rw [if_neg (by rw [(domain_eq_iff _ _).2 hd]; simp)]
    obtain ⟨j, h1, h2, h3, _, _⟩ := join_ok hp hq
    rw [h1]
    simp only
    refine (C37_equality j q h2 hq).1 ?_
    rw [h3]
    intro hs
    have hqN : q.domain = .N := by
      cases hqd : q.domain <;> simp_all [SameDomain]
    rw [hqN] at hd
    have hpN : p.domain = .N := by
      cases hpd : p.domain <;> simp_all [SameDomain]
    rcases h with h | h
    · exact h hpN
    · exact h hqN
  · rw [if_pos]
    rw [Bool.not_eq_true', ← Bool.not_eq_true, domain_eq_iff]
    exact hd

example : (do let p ← newPart (L := Nat) [[2, 4]]; let q ← newPart [[2, 3, 4]]; p.le q) = .ok true := by decide
example : (do let p ← newPart (L := Nat) [[2, 4]] .Z; let q ← newPart [[2, 3, 4]] .Z; p.le q) = .error .domainsNotEqual := by
  decide

/-- **C41.** `<=` is a partial order on the partitions of the natural numbers, and `p < q` is `p <= q and p != q`. -/
theorem C41_partial_order (p q r : SetPart L) (hp : WF p) (hq : WF q) (hr : WF r) (hpd : p.domain = .N) (hqd : q.domain = .N)
    (hrd : r.domain = .N) :
    p.le p = .ok true ∧
    (p.le q = .ok true → q.le p = .ok true → p.eq q = .ok true) ∧
    (p.eq q = .ok true → p.le q = .ok true) ∧
    (p.le q = .ok true → q.le r = .ok true → p.le r = .ok true) ∧
    (p.lt q = .ok true ↔ p.le q = .ok true ∧ p.eq q = .ok false) := by
  have hle : ∀ {p q : SetPart L}, WF p → WF q → p.domain = .N → q.domain = .N →
      (p.le q = .ok true ↔ ∀ a b, a ≠ b → p.pairInSameBlock a b = true → q.pairInSameBlock a b = true) := by
    intro p q hp hq hpd hqd
    obtain ⟨r, e1, e2⟩ := C41_le p q hp hq hpd hqd
    rw [e1, ← e2]
    simp
  refine ⟨?_, ?_, ?_, ?_, ?_⟩
  · rw [hle hp hp hpd hpd]; exact fun _ _ _ h => h
  · rw [hle hp hq hpd hqd, hle hq hp hqd hpd]
    intro h1 h2
    obtain ⟨s, e1, e2⟩ := (C37_equality p q hp hq).2 (by rw [hpd, hqd]; trivial)
    rw [e1, e2.2 (fun a b hab => Bool.eq_iff_iff.2 ⟨h1 a b hab, h2 a b hab⟩)]
  · intro h
    rw [hle hp hq hpd hqd]
    intro a b hab
    rw [hp.pairInSameBlock, hq.pairInSameBlock, eqv_of_eq h]
    exact id
  · rw [hle hp hq hpd hqd, hle hq hr hqd hrd, hle hp hr hpd hrd]
    exact fun h1 h2 a b hab h => h2 a b hab (h1 a b hab h)
  · obtain ⟨s, e1, _⟩ := (C37_equality p q hp hq).2 (by rw [hpd, hqd]; trivial)
    unfold SetPart.lt
    rw [e1]
    cases s with
    | true => simp
    | false => simp

/-- Both expressions have a value, and the values are equal. -/
def SameValue (x y : Except Err (SetPart L)) : Prop := ∃ r s, x = .ok r ∧ y = .ok s ∧ r.eq s = .ok true

theorem chain_eqv_left {p q p' q' : SetPart L} (h1 : ∀ x y, Eqv p.blocks x y → Chain p' q' x y)
    (h2 : ∀ x y, Eqv q.blocks x y → Chain p' q' x y) {x y : Int} (h : Chain p q x y) : Chain p' q' x y := by
  refine eqvGen_le ?_ h
  rintro u v (huv | huv)
  · exact h1 u v (Or.inr huv)
  · exact h2 u v (Or.inr huv)

theorem chain_le_eqv {p q r : SetPart L} (hr : WF r) (h1 : ∀ x y, Eqv p.blocks x y → Eqv r.blocks x y)
    (h2 : ∀ x y, Eqv q.blocks x y → Eqv r.blocks x y) {x y : Int} (h : Chain p q x y) : Eqv r.blocks x y := by
  have he := Eqv.equivalence hr.canon
  induction h with
  | rel u v huv =>
    rcases huv with huv | huv
    · exact h1 u v (Or.inr huv)
    · exact h2 u v (Or.inr huv)
  | refl u => exact he.refl u
  | symm u v _ ih => exact he.symm ih
  | trans u v w _ _ i1 i2 => exact he.trans i1 i2

/-- **C41.** The lattice laws for partitions of the natural numbers. -/
theorem C41_lattice (p q r : SetPart L) (hp : WF p) (hq : WF q) (hr : WF r) (hpd : p.domain = .N) (hqd : q.domain = .N)
    (hrd : r.domain = .N) :
    SameValue (p.meet p) (.ok p) ∧ SameValue (p.join p) (.ok p) ∧
    SameValue (p.meet q) (q.meet p) ∧ SameValue (p.join q) (q.join p) ∧
    SameValue (p.meet q >>= (·.meet r)) (q.meet r >>= (p.meet ·)) ∧
    SameValue (p.join q >>= (·.join r)) (q.join r >>= (p.join ·)) ∧
    SameValue (p.join q >>= (p.meet ·)) (.ok p) ∧ SameValue (p.meet q >>= (p.join ·)) (.ok p) := by
  have hm : ∀ {p q : SetPart L}, WF p → WF q → p.domain = .N → q.domain = .N → ∃ r, p.meet q = .ok r ∧ WF r ∧ r.domain = .N ∧
      ∀ x y, Eqv r.blocks x y ↔ Eqv p.blocks x y ∧ Eqv q.blocks x y := by
    intro p q hp hq hpd hqd
    obtain ⟨r, h1, h2, h3, _, h5⟩ := meet_ok hp hq (by rw [hpd, hqd]; trivial)
    exact ⟨r, h1, h2, h3.trans hpd, h5⟩
  have hj : ∀ {p q : SetPart L}, WF p → WF q → ∃ r, p.join q = .ok r ∧ WF r ∧ r.domain = .N ∧
      ∀ x y, Eqv r.blocks x y ↔ Chain p q x y := by
    intro p q hp hq
    obtain ⟨r, h1, h2, h3, _, h5⟩ := join_ok hp hq
    exact ⟨r, h1, h2, h3, h5⟩
  have heq : ∀ {p q : SetPart L}, WF p → WF q → p.domain = .N → q.domain = .N →
      (∀ x y, Eqv p.blocks x y ↔ Eqv q.blocks x y) → p.eq q = .ok true :=
    fun hp hq hpd hqd h => eq_of_eqv hp hq (by rw [hpd, hqd]; trivial) h
  obtain ⟨pp, a1, a2, a3, a4⟩ := hm hp hp hpd hpd
  obtain ⟨jpp, b1, b2, b3, b4⟩ := hj hp hp
  obtain ⟨pq, c1, c2, c3, c4⟩ := hm hp hq hpd hqd
  obtain ⟨qp, d1, d2, d3, d4⟩ := hm hq hp hqd hpd
  obtain ⟨jpq, e1, e2, e3, e4⟩ := hj hp hq
  obtain ⟨jqp, f1, f2, f3, f4⟩ := hj hq hp
  obtain ⟨qr, g1, g2, g3, g4⟩ := hm hq hr hqd hrd
  obtain ⟨jqr, i1, i2, i3, i4⟩ := hj hq hr
  obtain ⟨pq_r, k1, k2, k3, k4⟩ := hm c2 hr c3 hrd
  obtain ⟨p_qr, l1, l2, l3, l4⟩ := hm hp g2 hpd g3
  obtain ⟨jpq_r, m1, m2, m3, m4⟩ := hj e2 hr
  obtain ⟨jp_qr, n1, n2, n3, n4⟩ := hj hp i2
  obtain ⟨x1, o1, o2, o3, o4⟩ := hm hp e2 hpd e3
  obtain ⟨x2, q1, q2, q3, q4⟩ := hj hp c2
  refine ⟨⟨pp, p, a1, rfl, heq a2 hp a3 hpd ?_⟩, ⟨jpp, p, b1, rfl, heq b2 hp b3 hpd ?_⟩,
    ⟨pq, qp, c1, d1, heq c2 d2 c3 d3 ?_⟩, ⟨jpq, jqp, e1, f1, heq e2 f2 e3 f3 ?_⟩,
    ⟨pq_r, p_qr, by rw [c1]; exact k1, by rw [g1]; exact l1, heq k2 l2 k3 l3 ?_⟩,
    ⟨jpq_r, jp_qr, by rw [e1]; exact m1, by rw [i1]; exact n1, heq m2 n2 m3 n3 ?_⟩,
    ⟨x1, p, by rw [e1]; exact o1, rfl, heq o2 hp o3 hpd ?_⟩, ⟨x2, p, by rw [c1]; exact q1, rfl, heq q2 hp q3 hpd ?_⟩⟩
  · intro x y; rw [a4, and_self_iff]
  · intro x y; rw [b4]
    exact ⟨chain_le_eqv hp (fun _ _ h => h) (fun _ _ h => h), chain_of_eqv_left⟩
  · intro x y; rw [c4, d4, and_comm]
  · intro x y; rw [e4, f4]
    exact ⟨chain_eqv_left (fun _ _ => chain_of_eqv_right) (fun _ _ => chain_of_eqv_left),
      chain_eqv_left (fun _ _ => chain_of_eqv_right) (fun _ _ => chain_of_eqv_left)⟩
  · intro x y; rw [k4, c4, l4, g4, and_assoc]
  · intro x y; rw [m4, n4]
    have u1 : ∀ x y, Eqv p.blocks x y → Chain p jqr x y := fun _ _ => chain_of_eqv_left
    have u2 : ∀ x y, Eqv q.blocks x y → Chain p jqr x y :=
      fun x y h => chain_of_eqv_right ((i4 x y).2 (chain_of_eqv_left h))
    have u3 : ∀ x y, Eqv r.blocks x y → Chain p jqr x y :=
      fun x y h => chain_of_eqv_right ((i4 x y).2 (chain_of_eqv_right h))
    have v1 : ∀ x y, Eqv p.blocks x y → Chain jpq r x y :=
      fun x y h => chain_of_eqv_left ((e4 x y).2 (chain_of_eqv_left h))
    have v2 : ∀ x y, Eqv q.blocks x y → Chain jpq r x y :=
      fun x y h => chain_of_eqv_left ((e4 x y).2 (chain_of_eqv_right h))
    have v3 : ∀ x y, Eqv r.blocks x y → Chain jpq r x y := fun _ _ => chain_of_eqv_right
    exact ⟨chain_eqv_left (fun x y h => chain_eqv_left u1 u2 ((e4 x y).1 h)) u3,
      chain_eqv_left v1 (fun x y h => chain_eqv_left v2 v3 ((i4 x y).1 h))⟩
  · intro x y; rw [o4, e4]
    exact ⟨fun h => h.1, fun h => ⟨h, chain_of_eqv_left h⟩⟩
  · intro x y; rw [q4]
    exact ⟨chain_le_eqv hp (fun _ _ h => h) (fun x y h => ((c4 x y).1 h).1), chain_of_eqv_left⟩

/-- **C41.** `meet` is the greatest lower bound and `join` the least upper bound. -/
theorem C41_bounds (p q r : SetPart L) (hp : WF p) (hq : WF q) (hr : WF r) (hpd : p.domain = .N) (hqd : q.domain = .N)
    (hrd : r.domain = .N) :
    ∃ m j, p.meet q = .ok m ∧ p.join q = .ok j ∧
      (r.le m = .ok true ↔ r.le p = .ok true ∧ r.le q = .ok true) ∧
      (j.le r = .ok true ↔ p.le r = .ok true ∧ q.le r = .ok true) := by
  have hle : ∀ {p q : SetPart L}, WF p → WF q → p.domain = .N → q.domain = .N →
      (p.le q = .ok true ↔ ∀ x y, Eqv p.blocks x y → Eqv q.blocks x y) := by
    intro p q hp hq hpd hqd
    obtain ⟨r, e1, e2⟩ := C41_le p q hp hq hpd hqd
    rw [e1]
    have : (∀ a b, a ≠ b → p.pairInSameBlock a b = true → q.pairInSameBlock a b = true) ↔
        ∀ x y, Eqv p.blocks x y → Eqv q.blocks x y := by
      constructor
      · intro h x y hxy
        by_cases he : x = y
        · exact Or.inl he
        · exact (eqv_iff_pair hq he).1 (h x y he ((eqv_iff_pair hp he).2 hxy))
      · intro h a b hab hp'
        exact (eqv_iff_pair hq hab).2 (h a b ((eqv_iff_pair hp hab).1 hp'))
    rw [← this, ← e2]
    simp
  obtain ⟨m, a1, a2, a3, _, a5⟩ := meet_ok hp hq (by rw [hpd, hqd]; trivial)
  obtain ⟨j, b1, b2, b3, _, b5⟩ := join_ok hp hq
  refine ⟨m, j, a1, b1, ?_, ?_⟩
  · rw [hle hr a2 hrd (a3.trans hpd), hle hr hp hrd hpd, hle hr hq hrd hqd]
    simp only [a5]
    exact ⟨fun h => ⟨fun x y hxy => (h x y hxy).1, fun x y hxy => (h x y hxy).2⟩,
      fun h x y hxy => ⟨h.1 x y hxy, h.2 x y hxy⟩⟩
  · rw [hle b2 hr b3 hrd, hle hp hr hpd hrd, hle hq hr hqd hrd]
    simp only [b5]
    exact ⟨fun h => ⟨fun x y hxy => h x y (chain_of_eqv_left hxy), fun x y hxy => h x y (chain_of_eqv_right hxy)⟩,
      fun h x y hxy => chain_le_eqv hr h.1 h.2 hxy⟩

end Verif.SP
