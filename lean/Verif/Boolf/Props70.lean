import Verif.Boolf.Props69

/-!
# C119: spots, links and crossings of a collection; C120: `find_segments`
-/

namespace Verif.BF
open Verif.Py Verif.BV Verif.P Verif.W Verif.SP
open Verif.A hiding Mat

/-! ### crossings -/

/-- the vector of a square -/
def squareVector (n k j a : Nat) : List Int := (linkVector n k a).set j 0

theorem linkVector_set {n k j a : Nat} (hjk : j ≠ k) (hj : a.testBit j = false) : (linkVector n k a).set j 1 = linkVector n k (a ^^^ 2 ^ j) := by
  unfold linkVector
  rw [List.set_comm _ _ hjk.symm, ← spotVector_set, hj]
  rfl

theorem linkVector_set' {n k j a : Nat} (hjk : j ≠ k) (hjn : j < n) (hj : a.testBit j = false) : (linkVector n k a).set j (-1) = linkVector n k a := by
  have h : (linkVector n k a)[j]? = some (-1) := by
    unfold linkVector
    rw [List.getElem?_set_ne hjk.symm, spotVector_get hjn, hj]
    rfl
  have := set_set_self (y := 0) h
  rwa [List.set_set] at this

/-- opposite links of a square -/
theorem exists_square {n j : Nat} {v : List Int} (h : Ternary n v) (h2 : v.count 0 = 2) (hj : v[j]? = some 0) :
    ∃ k a, k < n ∧ a < 2 ^ n ∧ a.testBit k = false ∧ j ≠ k ∧ a.testBit j = false ∧ v = squareVector n k j a := by
  have hjl := (List.getElem?_eq_some_iff.1 hj).1
  have hjn : j < n := by rw [← h.1]; exact hjl
  have hc : (v.set j (-1)).count 0 = 1 := by
    rw [List.count_set hjl, h2, (List.getElem?_eq_some_iff.1 hj).2]
    simp
  obtain ⟨k, a, hk, ha, hb, he⟩ := exists_link (h.set j (by simp)) hc
  have hg : (linkVector n k a)[j]? = some (-1) := by rw [← he, List.getElem?_set_self hjl]
  have hjk : j ≠ k := by
    rintro rfl
    rw [linkVector_get hk] at hg
    simp at hg
  refine ⟨k, a, hk, ha, hb, hjk, ?_, ?_⟩
  · unfold linkVector at hg
    rw [List.getElem?_set_ne hjk.symm, spotVector_get hjn] at hg
    by_contra hc
    rw [Bool.not_eq_false] at hc
    rw [hc] at hg
    simp at hg
  · unfold squareVector
    rw [← he]
    exact (set_set_self hj).symm

theorem squareVector_sides {n k j a : Nat} (hjk : j ≠ k) (hjn : j < n) (hj : a.testBit j = false) :
    (squareVector n k j a).set j (-1) = linkVector n k a ∧ (squareVector n k j a).set j 1 = linkVector n k (a ^^^ 2 ^ j) := by
  unfold squareVector
  rw [List.set_set, List.set_set]
  exact ⟨linkVector_set' hjk hjn hj, linkVector_set hjk hj⟩

theorem flip_testBit_ne {a j k : Nat} (hjk : j ≠ k) : (a ^^^ 2 ^ j).testBit k = a.testBit k := by
  rw [testBit_flip]
  simp [hjk]

theorem intLog2_flip (a k : Nat) : intLog2 (a ^^^ (a ^^^ 2 ^ k)) = .ok k := by
  have : a ^^^ (a ^^^ 2 ^ k) = 2 ^ k := by rw [← Nat.xor_assoc, Nat.xor_self, Nat.zero_xor]
  rw [this]
  unfold intLog2
  rw [if_neg (by have := Nat.two_pow_pos k; omega), Nat.log2_two_pow]

/-- the crossings of a square in the direction of `k` -/
def CrossingOf (n : Nat) (v : List Int) (j k : Nat) (x : List Nat × List Nat) : Prop :=
  ∃ a, k < n ∧ j < n ∧ a < 2 ^ n ∧ a.testBit k = false ∧ j ≠ k ∧ a.testBit j = false ∧ v = squareVector n k j a ∧
    x = ([a, a ^^^ 2 ^ k], [a ^^^ 2 ^ j, a ^^^ 2 ^ j ^^^ 2 ^ k])

theorem squareVector_get {n k j a : Nat} (hj : j < n) : (squareVector n k j a)[j]? = some 0 :=
  List.getElem?_set_self (by rw [(linkVector_ternary n k a).1]; exact hj)

theorem CrossingOf.unique {n : Nat} {v : List Int} {j k k' : Nat} {x x' : List Nat × List Nat} (h : CrossingOf n v j k x) (h' : CrossingOf n v j k' x') : k = k' ∧ x = x' := by
  obtain ⟨a, p1, p2, p3, p4, p5, p6, p7, p8⟩ := h
  obtain ⟨b, q1, q2, q3, q4, q5, q6, q7, q8⟩ := h'
  have e1 := (squareVector_sides p5 p2 p6).1
  rw [← p7, q7, (squareVector_sides q5 q2 q6).1] at e1
  have e2 := linkVector_zeroKeys (a := a) p1
  rw [← e1, linkVector_zeroKeys q1] at e2
  simp only [List.cons.injEq, and_true] at e2
  subst e2
  have e3 := linkVector_spots p1 p3 p4
  rw [← e1, linkVector_spots q1 q3 q4] at e3
  simp only [Except.ok.injEq, List.cons.injEq, and_true] at e3
  rw [p8, q8, e3.1]
  exact ⟨rfl, rfl⟩

theorem crossingLoop_spec {n : Nat} {v : List Int} (hv : Ternary n v) (h2 : v.count 0 = 2) : ∀ (l : List Nat) (R : Nat → List Nat × List Nat → Prop)
    (r : Dict Nat (List (List Nat × List Nat))), (∀ j ∈ l, v[j]? = some 0) → SetsOf R r →
    ∃ r', crossingLoop (l.map fun k => (k, [v.set k (-1), v.set k 1])) r = .ok r' ∧ SetsOf (fun k x => R k x ∨ ∃ j ∈ l, CrossingOf n v j k x) r'
  | [], R, r, _, h => ⟨r, rfl, h.congr fun k x => by simp⟩
  | j :: l, R, r, hl, h => by
    have hj := hl j (by simp)
    obtain ⟨k, a, hk, ha, hb, hjk, hbj, he⟩ := exists_square hv h2 hj
    have hjn : j < n := by rw [← hv.1]; exact (List.getElem?_eq_some_iff.1 hj).1
    obtain ⟨e1, e2⟩ := squareVector_sides hjk hjn hbj (k := k)
    have hx : CrossingOf n v j k ([a, a ^^^ 2 ^ k], [a ^^^ 2 ^ j, a ^^^ 2 ^ j ^^^ 2 ^ k]) := ⟨a, hk, hjn, ha, hb, hjk, hbj, he, rfl⟩
    obtain ⟨r', h3, h4⟩ := crossingLoop_spec hv h2 l _ _ (fun i hi => hl i (by simp [hi])) (h.addTo k ([a, a ^^^ 2 ^ k], [a ^^^ 2 ^ j, a ^^^ 2 ^ j ^^^ 2 ^ k]))
    refine ⟨r', ?_, h4.congr fun i x => ?_⟩
    · rw [List.map_cons, crossingLoop]
      have s1 := linkVector_spots hk ha hb
      have s2 := linkVector_spots hk (flip_lt ha hjn) (by rw [flip_testBit_ne hjk]; exact hb) (a := a ^^^ 2 ^ j)
      have hm : ([v.set j (-1), v.set j 1].mapM segmentToAdjacentSpots) = .ok [[a, a ^^^ 2 ^ k], [a ^^^ 2 ^ j, a ^^^ 2 ^ j ^^^ 2 ^ k]] := by
        rw [he, e1, e2]
        simp only [List.mapM_cons, List.mapM_nil, s1, s2, bind, Except.bind, pure, Except.pure]
      rw [hm]
      simp only [bind, Except.bind, unpackFour, intLog2_flip, if_true]
      exact h3
    · constructor
      · rintro ((hR | ⟨rfl, rfl⟩) | ⟨i', hi', hc⟩)
        · exact .inl hR
        · exact .inr ⟨j, by simp, hx⟩
        · exact .inr ⟨i', by simp [hi'], hc⟩
      · rintro (hR | ⟨i', hi', hc⟩)
        · exact .inl (.inl hR)
        · rcases List.mem_cons.1 hi' with rfl | hi'
          · obtain ⟨e1, e2⟩ := hc.unique hx
            exact .inl (.inr ⟨e1, e2⟩)
          · exact .inr ⟨i', hi', hc⟩

theorem crossingsLoop_spec {n : Nat} : ∀ (D : Dict (List Int) Segment) (R : Nat → List Nat × List Nat → Prop) (r : Dict Nat (List (List Nat × List Nat))),
    (∀ e ∈ D, Ternary n e.1 ∧ e.1.count 0 = 2 ∧ e.2 = segmentOf e.1) → SetsOf R r →
    ∃ r', crossingsLoop D r = .ok r' ∧ SetsOf (fun k x => R k x ∨ ∃ v ∈ D.keys, ∃ j, CrossingOf n v j k x) r'
  | [], R, r, _, h => ⟨r, rfl, h.congr fun k x => by simp [Dict.keys]⟩
  | (v, s) :: D, R, r, hD, h => by
    obtain ⟨t1, t2, t3⟩ := hD _ List.mem_cons_self
    simp only at t1 t2 t3
    subst t3
    obtain ⟨r1, h1, h2⟩ := crossingLoop_spec t1 t2 (zeroKeys v) R r (fun j hj => mem_zeroKeys.1 hj) h
    obtain ⟨r', h3, h4⟩ := crossingsLoop_spec D _ r1 (fun e he => hD e (List.mem_cons_of_mem _ he)) h2
    refine ⟨r', ?_, h4.congr fun k x => ?_⟩
    · rw [crossingsLoop]
      have : crossingLoop (segmentOf v).inferiorVectors r = .ok r1 := h1
      rw [this]
      exact h3
    · have hkeys : Dict.keys ((v, segmentOf v) :: D) = v :: Dict.keys D := rfl
      rw [hkeys]
      constructor
      · rintro ((hR | ⟨j, hj, hc⟩) | ⟨w, hw, j, hc⟩)
        · exact .inl hR
        · exact .inr ⟨v, by simp, j, hc⟩
        · exact .inr ⟨w, List.mem_cons_of_mem _ hw, j, hc⟩
      · rintro (hR | ⟨w, hw, j, hc⟩)
        · exact .inl (.inl hR)
        · rcases List.mem_cons.1 hw with rfl | hw
          · refine .inl (.inr ⟨j, ?_, hc⟩)
            obtain ⟨a, _, hj, _, _, _, _, he, _⟩ := hc
            rw [mem_zeroKeys, he]
            exact squareVector_get hj
          · exact .inr ⟨w, hw, j, hc⟩

theorem squareVector_full {n k j a : Nat} {S : Nat → Prop} (hk : k < n) (hjn : j < n) (ha : a < 2 ^ n) (hb : a.testBit k = false) (hjk : j ≠ k) (hbj : a.testBit j = false) :
    FullFace n S (squareVector n k j a) ↔ IsCrossing S k j a := by
  obtain ⟨e1, e2⟩ := squareVector_sides hjk hjn hbj (k := k)
  have hb' : (a ^^^ 2 ^ j).testBit k = false := by rw [flip_testBit_ne hjk]; exact hb
  have hT : Ternary n (squareVector n k j a) := (linkVector_ternary n k a).set j (by simp)
  constructor
  · intro h
    refine ⟨hjk, hbj, ?_, ?_⟩
    · rw [← linkVector_full hk ha hb, ← e1]
      exact h.inferior (squareVector_get hjn) (by simp)
    · rw [← linkVector_full hk (flip_lt ha hjn) hb', ← e2]
      exact h.inferior (squareVector_get hjn) (by simp)
  · rintro ⟨_, _, h1, h2⟩
    rw [← linkVector_full hk ha hb, ← e1] at h1
    rw [← linkVector_full hk (flip_lt ha hjn) hb', ← e2] at h2
    refine ⟨hT, fun s hs => ?_⟩
    rcases (adjoins_zero (squareVector_get hjn)).1 hs with hs | hs
    · exact h1.2 s hs
    · exact h2.2 s hs

theorem squareVector_count {n k j a : Nat} (hk : k < n) (hjn : j < n) (hjk : j ≠ k) (hbj : a.testBit j = false) : (squareVector n k j a).count 0 = 2 := by
  have hl : j < (linkVector n k a).length := by rw [(linkVector_ternary n k a).1]; exact hjn
  have hne : (linkVector n k a)[j] ≠ 0 := by
    intro h
    have : (linkVector n k a)[j]? = some 0 := by rw [List.getElem?_eq_getElem hl, h]
    unfold linkVector at this
    rw [List.getElem?_set_ne hjk.symm, spotVector_get hjn, hbj] at this
    simp at this
  unfold squareVector
  rw [List.count_set hl, linkVector_count hk]
  simp [hne]

theorem getNeighboringLinks_spec {n : Nat} {c : Collection} {S : Nat → Prop} (h : Coll n c) (hS : ∀ v, c.inquire v = true ↔ FullFace n S v) (hlt : ∀ s, S s → s < 2 ^ n) :
    ∃ d, c.getNeighboringLinks = .ok d ∧ SetsOf (fun k x => ∃ j a, IsCrossing S k j a ∧ x = ([a, a ^^^ 2 ^ k], [a ^^^ 2 ^ j, a ^^^ 2 ^ j ^^^ 2 ^ k])) d := by
  obtain ⟨_, hs, hk⟩ := h.layer 2
  obtain ⟨d, h1, h2⟩ := crossingsLoop_spec (n := n) ((c.segments.get? 2).getD []) (fun _ _ => False) [] (by
    intro e he
    have hm := (hk e.1).1 (List.mem_map.2 ⟨e, he, rfl⟩)
    exact ⟨((hS _).1 hm.2).1, hm.1, hs e he⟩) ⟨by simp [Dict.keys], by simp, by simp, by simp⟩
  refine ⟨d, h1, h2.congr fun k x => ?_⟩
  simp only [false_or]
  constructor
  · rintro ⟨v, hv, j, a, p1, p2, p3, p4, p5, p6, p7, p8⟩
    rw [hk, hS, p7, squareVector_full p1 p2 p3 p4 p5 p6] at hv
    exact ⟨j, a, hv.2, p8⟩
  · rintro ⟨j, a, hc, rfl⟩
    obtain ⟨q1, q2, q3, q4⟩ := hc
    obtain ⟨r1, r2⟩ := q3.lt hlt
    have hjn : j < n := (IsLink.lt (k := j) hlt ⟨q2, q3.2.1, q4.2.1⟩).1
    refine ⟨squareVector n k j a, ?_, j, a, r1, hjn, r2, q3.1, q1, q2, rfl, rfl⟩
    rw [hk, hS, squareVector_full r1 hjn r2 q3.1 q1 q2]
    exact ⟨squareVector_count r1 hjn q1 q2, q1, q2, q3, q4⟩

/-- **C119.** `get_spots` is the set of full spots.  `get_links` maps each atom to the set of pairs of full spots that differ only in this atom.
`get_neighboring_links` maps each atom to the pairs of such links, that differ only in one other atom. -/
theorem C119_spots_links {f : Boolf} (hf : Reach f) {fuel : Nat} (hfuel : 3 ^ f.valency ≤ fuel) {order : List (List Nat) → List (List Nat)} (ho : ∀ l, (order l).Perm l) :
    ∃ c links crossings, f.collection fuel order = .ok c ∧ c.getLinks = .ok links ∧ c.getNeighboringLinks = .ok crossings ∧
      c.getSpots.Nodup ∧ (∀ s, s ∈ c.getSpots ↔ s ∈ f.fullspots) ∧
      SetsOf (fun k x => ∃ a, IsLink (· ∈ f.fullspots) k a ∧ x = [a, a ^^^ 2 ^ k]) links ∧
      SetsOf (fun k x => ∃ j a, IsCrossing (· ∈ f.fullspots) k j a ∧ x = ([a, a ^^^ 2 ^ k], [a ^^^ 2 ^ j, a ^^^ 2 ^ j ^^^ 2 ^ k])) crossings := by
  have hlt : ∀ s, s ∈ f.fullspots → s < 2 ^ f.valency := by
    intro s hs
    rw [hf.canon.val]
    exact fullspots_lt hf.canon.toSound hs
  obtain ⟨c, h1, h2, h3⟩ := collection_spec hf.canon.toSound hf.canon.val hfuel ho
  obtain ⟨l, l1, l2⟩ := getLinks_spec h2 h3 hlt
  obtain ⟨r, r1, r2⟩ := getNeighboringLinks_spec h2 h3 hlt
  obtain ⟨s1, s2⟩ := getSpots_spec h2 h3 hlt
  exact ⟨c, l, r, h1, l1, r1, s1, s2, l2, r2⟩

example : ∃ f, newTT (.str "0111".toList) = .ok f ∧ Reach f ∧ f.fullspots = [1, 2, 3] ∧ 3 ^ f.valency ≤ 9 ∧
    ((f.collection 9 id).bind fun c => c.getLinks) = .ok [(0, [[2, 3]]), (1, [[1, 3]])] := by
  obtain ⟨_, e1, e2⟩ := newTT_explicit "0111".toList [false, true, true, true] [0, 1] 2 (by decide) (by decide) (by decide) (by intro n; simp; omega) (by decide) (by decide)
  exact ⟨_, e1 (by decide), e2.reach, by decide, by decide, by decide +kernel⟩

/-! ### connected components -/

theorem componentsLoop_eq_nil {α : Type} (g : SegGraph α) : ∀ (l seen : List α), g.componentsLoop l seen = [] ↔ ∀ x ∈ l, x ∈ seen
  | [], seen => by simp [SegGraph.componentsLoop]
  | x :: l, seen => by
    rw [SegGraph.componentsLoop]
    split
    · next h => rw [componentsLoop_eq_nil g l seen]; simp [h]
    · next h => simp [h]

theorem SegGraph.Adjacent.symm {α : Type} {g : SegGraph α} {x y : α} (h : g.Adjacent x y) : g.Adjacent y x := Or.symm h

theorem reach_symm {α : Type} {g : SegGraph α} {x y : α} (h : Relation.ReflTransGen g.Adjacent x y) : Relation.ReflTransGen g.Adjacent y x := by
  induction h with
  | refl => exact .refl
  | tail _ h ih => exact (Relation.ReflTransGen.single h.symm).trans ih

theorem components_length {α : Type} (g : SegGraph α) : (g.components = [] ↔ g.nodes = []) ∧
    (g.components.length ≤ 1 ↔ ∀ x ∈ g.nodes, ∀ y ∈ g.nodes, Relation.ReflTransGen g.Adjacent x y) := by
  constructor
  · unfold SegGraph.components
    rw [componentsLoop_eq_nil]
    constructor
    · intro h
      cases hn : g.nodes with
      | nil => rfl
      | cons x l =>
        have := h x (by rw [hn]; simp)
        simp at this
    · intro h
      simp [h]
  · unfold SegGraph.components
    cases hn : g.nodes with
    | nil => simp [SegGraph.componentsLoop]
    | cons x l =>
      have hx : x ∈ g.nodes := by rw [hn]; simp
      rw [SegGraph.componentsLoop, if_neg (by simp), List.length_cons]
      have : ∀ m : List (List α), m.length + 1 ≤ 1 ↔ m = [] := by
        intro m
        rw [← List.length_eq_zero_iff]
        omega
      rw [this, componentsLoop_eq_nil, ← hn]
      simp only [List.nil_append, List.mem_filter, decide_eq_true_eq]
      constructor
      · intro h
        have hr : ∀ y ∈ g.nodes, Relation.ReflTransGen g.Adjacent x y := by
          intro y hy
          rw [hn] at hy
          rcases List.mem_cons.1 hy with rfl | hy
          · exact .refl
          · exact (h y hy).2
        intro y hy z hz
        exact (reach_symm (hr y hy)).trans (hr z hz)
      · intro h y hy
        have hy' : y ∈ g.nodes := by rw [hn]; exact List.mem_cons_of_mem _ hy
        exact ⟨hy', h x hx y hy'⟩

theorem mem_addSet {α : Type} [DecidableEq α] {s : List α} {x y : α} : y ∈ addSet s x ↔ y ∈ s ∨ y = x := by
  unfold addSet
  split
  · next h =>
    refine ⟨.inl, ?_⟩
    rintro (h' | rfl)
    · exact h'
    · exact h
  · simp

theorem foldl_addNode {α : Type} [DecidableEq α] : ∀ (l : List α) (g : SegGraph α), (l.foldl SegGraph.addNode g).edges = g.edges ∧
    ∀ x, x ∈ (l.foldl SegGraph.addNode g).nodes ↔ x ∈ g.nodes ∨ x ∈ l
  | [], g => by simp
  | y :: l, g => by
    obtain ⟨h1, h2⟩ := foldl_addNode l (g.addNode y)
    rw [List.foldl_cons]
    refine ⟨h1, fun x => ?_⟩
    rw [h2, SegGraph.addNode, mem_addSet, List.mem_cons, or_assoc]

theorem addPairs_spec : ∀ (l : List (List Nat)) (g : SegGraph Nat), (∀ p ∈ l, ∃ a b, p = [a, b]) →
    ∃ g', addPairs l g = .ok g' ∧ (∀ x, x ∈ g'.nodes ↔ x ∈ g.nodes ∨ ∃ p ∈ l, x ∈ p) ∧ ∀ a b, (a, b) ∈ g'.edges ↔ (a, b) ∈ g.edges ∨ [a, b] ∈ l
  | [], g, _ => ⟨g, rfl, by simp, by simp⟩
  | p :: l, g, h => by
    obtain ⟨a, b, rfl⟩ := h p (by simp)
    obtain ⟨g', h1, h2, h3⟩ := addPairs_spec l (g.addEdge a b) (fun q hq => h q (by simp [hq]))
    refine ⟨g', by rw [addPairs]; exact h1, fun x => ?_, fun c d => ?_⟩
    · rw [h2, SegGraph.addEdge, mem_addSet, mem_addSet]
      rw [List.exists_mem_cons_iff, List.mem_cons, List.mem_singleton, or_assoc, or_assoc, or_assoc]
    · rw [h3, SegGraph.addEdge]
      simp only [List.mem_append, Prod.mk.injEq, List.mem_cons, List.cons.injEq, and_true]
      tauto

theorem foldl_addEdge {α : Type} [DecidableEq α] : ∀ (l : List (α × α)) (g : SegGraph α),
    (∀ x, x ∈ (l.foldl (fun g p => g.addEdge p.1 p.2) g).nodes ↔ x ∈ g.nodes ∨ ∃ p ∈ l, x = p.1 ∨ x = p.2) ∧ (l.foldl (fun g p => g.addEdge p.1 p.2) g).edges = g.edges ++ l
  | [], g => by simp
  | p :: l, g => by
    obtain ⟨h1, h2⟩ := foldl_addEdge l (g.addEdge p.1 p.2)
    rw [List.foldl_cons]
    refine ⟨fun x => ?_, ?_⟩
    · rw [h1, SegGraph.addEdge, mem_addSet, mem_addSet]
      rw [List.exists_mem_cons_iff, or_assoc, or_assoc, or_assoc]
    · rw [h2, SegGraph.addEdge]
      simp

/-! ### specification of `find_segments` -/

/-- a step between full spots that differ in one digit -/
def SpotStep (S : Nat → Prop) (s t : Nat) : Prop := S s ∧ S t ∧ ∃ k, t = s ^^^ 2 ^ k

/-- a step between parallel links, that are opposite sides of a square -/
def LinkStep (S : Nat → Prop) (k a b : Nat) : Prop := IsLink S k a ∧ IsLink S k b ∧ ∃ j, j ≠ k ∧ b = a ^^^ 2 ^ j

/-- all spots are connected by links -/
def SpotsConnected (S : Nat → Prop) : Prop := (∃ s, S s) ∧ ∀ s t, S s → S t → Relation.ReflTransGen (SpotStep S) s t

/-- all links in direction `k` are connected by squares -/
def LinksConnected (S : Nat → Prop) (k : Nat) : Prop := ∀ a b, IsLink S k a → IsLink S k b → Relation.ReflTransGen (LinkStep S k) a b

theorem flip_flip (a k : Nat) : a ^^^ 2 ^ k ^^^ 2 ^ k = a := by rw [Nat.xor_assoc, Nat.xor_self, Nat.xor_zero]

theorem cocoSpots_spec {S : Nat → Prop} {spots : List Nat} {links : Dict Nat (List (List Nat))} (hs : ∀ s, s ∈ spots ↔ S s)
    (hl : SetsOf (fun k x => ∃ a, IsLink S k a ∧ x = [a, a ^^^ 2 ^ k]) links) : ∃ b m, cocoSpots spots links = .ok (b, m) ∧ (b = true ↔ SpotsConnected S) := by
  have hmem : ∀ x, x ∈ links.values.flatMap id ↔ ∃ k a, IsLink S k a ∧ x = [a, a ^^^ 2 ^ k] := by
    intro x
    rw [List.mem_flatMap]
    constructor
    · rintro ⟨l, h1, h2⟩
      obtain ⟨⟨k, l'⟩, h3, rfl⟩ := List.mem_map.1 h1
      exact ⟨k, (hl.mem k x).1 ⟨l', h3, h2⟩⟩
    · rintro ⟨k, h⟩
      obtain ⟨l, h1, h2⟩ := (hl.mem k x).2 h
      exact ⟨l, List.mem_map.2 ⟨_, h1, rfl⟩, h2⟩
  obtain ⟨g, h1, h2, h3⟩ := addPairs_spec (links.values.flatMap id) (spots.foldl SegGraph.addNode {}) (by
    intro p hp
    obtain ⟨k, a, _, rfl⟩ := (hmem p).1 hp
    exact ⟨a, _, rfl⟩)
  obtain ⟨q1, q2⟩ := foldl_addNode spots {}
  have hnodes : ∀ x, x ∈ g.nodes ↔ S x := by
    intro x
    rw [h2, q2]
    constructor
    · rintro ((h | h) | ⟨p, hp, hx⟩)
      · cases h
      · exact (hs x).1 h
      · obtain ⟨k, a, ha, rfl⟩ := (hmem p).1 hp
        simp only [List.mem_cons, List.not_mem_nil, or_false] at hx
        rcases hx with rfl | rfl
        · exact ha.2.1
        · exact ha.2.2
    · intro h
      exact .inl (.inr ((hs x).2 h))
  have hedges : ∀ x y, (x, y) ∈ g.edges ↔ ∃ k, IsLink S k x ∧ y = x ^^^ 2 ^ k := by
    intro x y
    rw [h3, q1, hmem]
    simp only [List.cons.injEq, and_true]
    constructor
    · rintro (h | ⟨k, a, h, rfl, rfl⟩)
      · cases h
      · exact ⟨k, h, rfl⟩
    · rintro ⟨k, h, rfl⟩
      exact .inr ⟨k, x, h, rfl, rfl⟩
  have hadj : ∀ x y, g.Adjacent x y ↔ SpotStep S x y := by
    intro x y
    unfold SegGraph.Adjacent
    rw [hedges, hedges]
    constructor
    · rintro (⟨k, h, rfl⟩ | ⟨k, h, rfl⟩)
      · exact ⟨h.2.1, h.2.2, k, rfl⟩
      · exact ⟨h.2.2, h.2.1, k, (flip_flip y k).symm⟩
    · rintro ⟨h1, h2, k, rfl⟩
      by_cases hb : x.testBit k = true
      · exact .inr ⟨k, ⟨by rw [testBit_flip, hb]; simp, h2, by rw [flip_flip]; exact h1⟩, (flip_flip x k).symm⟩
      · rw [Bool.not_eq_true] at hb
        exact .inl ⟨k, ⟨hb, h1, h2⟩, rfl⟩
  have hadj' : g.Adjacent = SpotStep S := by
    funext x y
    exact propext (hadj x y)
  refine ⟨_, _, by unfold cocoSpots; rw [h1]; rfl, ?_⟩
  obtain ⟨c1, c2⟩ := components_length g
  rw [decide_eq_true_eq]
  have : g.components.length = 1 ↔ g.components ≠ [] ∧ g.components.length ≤ 1 := by
    rw [← List.length_pos_iff]
    omega
  rw [this, ne_eq, c1, c2, hadj']
  unfold SpotsConnected
  apply and_congr
  · rw [List.eq_nil_iff_forall_not_mem]
    simp only [hnodes, not_forall, not_not]
  · constructor
    · intro h s t hs ht
      exact h s ((hnodes s).2 hs) t ((hnodes t).2 ht)
    · intro h s hs t ht
      exact h s t ((hnodes s).1 hs) ((hnodes t).1 ht)

theorem SetsOf.get? {β : Type} {R : Nat → β → Prop} {d : Dict Nat (List β)} (h : SetsOf R d) (k : Nat) (x : β) : x ∈ (d.get? k).getD [] ↔ R k x := by
  rw [← h.mem]
  cases hg : d.get? k with
  | none =>
    constructor
    · intro h'; cases h'
    · rintro ⟨l, hl, _⟩
      rw [(Dict.get?_iff_mem h.keys).2 hl] at hg
      cases hg
  | some l =>
    constructor
    · intro hx; exact ⟨l, Dict.get?_mem hg, hx⟩
    · rintro ⟨l', hl, hx⟩
      rw [(Dict.get?_iff_mem h.keys).2 hl] at hg
      cases hg
      exact hx

theorem linkGraph_spec {S : Nat → Prop} {links : Dict Nat (List (List Nat))} {crossings : Dict Nat (List (List Nat × List Nat))}
    (hl : SetsOf (fun k x => ∃ a, IsLink S k a ∧ x = [a, a ^^^ 2 ^ k]) links)
    (hc : SetsOf (fun k x => ∃ j a, IsCrossing S k j a ∧ x = ([a, a ^^^ 2 ^ k], [a ^^^ 2 ^ j, a ^^^ 2 ^ j ^^^ 2 ^ k])) crossings) (k : Nat) :
    (linkGraph links crossings k).components.length ≤ 1 ↔ LinksConnected S k := by
  have e : linkGraph links crossings k = ((crossings.get? k).getD []).foldl (fun g p => g.addEdge p.1 p.2) (((links.get? k).getD []).foldl SegGraph.addNode {}) := by
    unfold linkGraph
    cases links.get? k <;> cases crossings.get? k <;> rfl
  obtain ⟨n1, n2⟩ := foldl_addNode ((links.get? k).getD []) {}
  obtain ⟨m1, m2⟩ := foldl_addEdge ((crossings.get? k).getD []) (((links.get? k).getD []).foldl SegGraph.addNode {})
  rw [← e] at m1 m2
  rw [n1] at m2
  obtain ⟨g, hg⟩ : ∃ g, g = linkGraph links crossings k := ⟨_, rfl⟩
  rw [← hg] at m1 m2 ⊢
  have hnodes : ∀ x, x ∈ g.nodes ↔ ∃ a, IsLink S k a ∧ x = [a, a ^^^ 2 ^ k] := by
    intro x
    rw [m1, n2, hl.get? k]
    constructor
    · rintro ((h | h) | ⟨p, hp, hx⟩)
      · cases h
      · exact h
      · obtain ⟨j, a, h, rfl⟩ := (hc.get? k p).1 hp
        rcases hx with rfl | rfl
        · exact ⟨a, h.2.2.1, rfl⟩
        · exact ⟨_, h.2.2.2, rfl⟩
    · intro h
      exact .inl (.inr h)
  have hedges : ∀ x y, (x, y) ∈ g.edges ↔ ∃ j a, IsCrossing S k j a ∧ x = [a, a ^^^ 2 ^ k] ∧ y = [a ^^^ 2 ^ j, a ^^^ 2 ^ j ^^^ 2 ^ k] := by
    intro x y
    rw [m2]
    show (x, y) ∈ [] ++ _ ↔ _
    rw [List.nil_append, hc.get? k]
    simp only [Prod.mk.injEq]
  rw [(components_length g).2]
  constructor
  · intro h a b ha hb
    have := h _ ((hnodes _).2 ⟨a, ha, rfl⟩) _ ((hnodes _).2 ⟨b, hb, rfl⟩)
    have hlift := Relation.ReflTransGen.lift (r := g.Adjacent) (p := LinkStep S k) (fun x => x.headD 0) (by
      rintro x y (h | h)
      · obtain ⟨j, a, ⟨p1, p2, p3, p4⟩, rfl, rfl⟩ := (hedges _ _).1 h
        exact ⟨p3, p4, j, p1, rfl⟩
      · obtain ⟨j, a, ⟨p1, p2, p3, p4⟩, rfl, rfl⟩ := (hedges _ _).1 h
        exact ⟨p4, p3, j, p1, (flip_flip a j).symm⟩) _ _ this
    exact hlift
  · intro h x hx y hy
    obtain ⟨a, ha, rfl⟩ := (hnodes _).1 hx
    obtain ⟨b, hb, rfl⟩ := (hnodes _).1 hy
    refine Relation.ReflTransGen.lift (r := LinkStep S k) (p := g.Adjacent) (fun a => [a, a ^^^ 2 ^ k]) ?_ _ _ (h a b ha hb)
    rintro c d ⟨h1, h2, j, hj, rfl⟩
    by_cases hbit : c.testBit j = true
    · exact .inr ((hedges _ _).2 ⟨j, c ^^^ 2 ^ j, ⟨hj, by rw [testBit_flip, hbit]; simp, h2, by rw [flip_flip]; exact h1⟩, rfl, by rw [flip_flip]⟩)
    · rw [Bool.not_eq_true] at hbit
      exact .inl ((hedges _ _).2 ⟨j, c, ⟨hj, hbit, h1, h2⟩, rfl, rfl⟩)

theorem cocoLinksLoop_fst (links : Dict Nat (List (List Nat))) (crossings : Dict Nat (List (List Nat × List Nat))) : ∀ (l : List Nat) (b : Bool) (d : Dict Nat (List (List (List Nat)))),
    (cocoLinksLoop links crossings l b d).1 = true ↔ b = true ∧ ∀ k ∈ l, (linkGraph links crossings k).components.length ≤ 1
  | [], b, d => by simp [cocoLinksLoop]
  | k :: l, b, d => by
    rw [cocoLinksLoop]
    rw [cocoLinksLoop_fst links crossings l]
    simp only [List.mem_cons, forall_eq_or_imp]
    by_cases h : (linkGraph links crossings k).components.length > 1
    · simp only [h, if_true, show ¬ (linkGraph links crossings k).components.length ≤ 1 by omega]
      simp
    · simp only [h, if_false, show (linkGraph links crossings k).components.length ≤ 1 by omega]
      simp

/-- **C120.** `find_segments` does not fail.  It returns the collection, and whether the full spots are connected, and for each atom the links in its direction are connected by squares. -/
theorem C120_find_segments {f : Boolf} (hf : Reach f) {fuel : Nat} (hfuel : 3 ^ f.valency ≤ fuel) {order : List (List Nat) → List (List Nat)} (ho : ∀ l, (order l).Perm l) :
    ∃ b c, f.findSegments fuel order = .ok (b, c) ∧ f.collection fuel order = .ok c ∧
      (b = true ↔ SpotsConnected (· ∈ f.fullspots) ∧ ∀ k, LinksConnected (· ∈ f.fullspots) k) := by
  obtain ⟨c, links, crossings, h1, h2, h3, _, h5, h6, h7⟩ := C119_spots_links hf hfuel ho
  obtain ⟨b, m, h8, h9⟩ := cocoSpots_spec h5 h6
  have hlt : ∀ s, s ∈ f.fullspots → s < 2 ^ f.valency := by
    intro s hs
    rw [hf.canon.val]
    exact fullspots_lt hf.canon.toSound hs
  refine ⟨b && (cocoLinks links crossings f.valency).1, c, ?_, h1, ?_⟩
  · unfold Boolf.findSegments
    rw [h1]
    simp only [bind, Except.bind, h2, h3, h8]
    rfl
  · rw [Bool.and_eq_true, h9]
    unfold cocoLinks
    rw [cocoLinksLoop_fst]
    simp only [List.mem_range, linkGraph_spec h6 h7, true_and]
    apply and_congr_right
    intro _
    constructor
    · intro h k
      by_cases hk : k < f.valency
      · exact h k hk
      · intro a b ha
        exact absurd (ha.lt hlt).1 hk
    · intro h k _
      exact h k

theorem isLink_0111 {k a : Nat} (h : IsLink (· ∈ [1, 2, 3]) k a) : (k = 0 ∧ a = 2) ∨ (k = 1 ∧ a = 1) := by
  obtain ⟨h0, h1, h2⟩ := h
  have e : 2 ^ k = a ^^^ (a ^^^ 2 ^ k) := by rw [← Nat.xor_assoc, Nat.xor_self, Nat.zero_xor]
  obtain ⟨t, ht⟩ : ∃ t, t = a ^^^ 2 ^ k := ⟨_, rfl⟩
  rw [← ht] at h2 e
  have hk : ∀ m, 2 ^ k = m → (m = 1 ∧ k = 0) ∨ (m = 2 ∧ k = 1) ∨ 3 < m := by
    rintro m rfl
    match k with
    | 0 => simp
    | 1 => simp
    | k + 2 => exact .inr (.inr (by have := Nat.two_pow_pos k; rw [Nat.pow_add]; omega))
  simp only [List.mem_cons, List.not_mem_nil, or_false] at h1 h2
  rcases h1 with rfl | rfl | rfl <;> rcases h2 with rfl | rfl | rfl <;> have hm := hk _ e <;> simp at hm <;> subst hm <;> simp at h0 ⊢
  exact absurd h0 (by decide)

/-- an `or` is connected, a `xor` is not -/
example : ∃ f g c d, newTT (.str "0111".toList) = .ok f ∧ newTT (.str "0110".toList) = .ok g ∧ Reach f ∧ Reach g ∧ f.findSegments 9 id = .ok (true, c) ∧ g.findSegments 9 id = .ok (false, d) := by
  obtain ⟨_, e1, e2⟩ := newTT_explicit "0111".toList [false, true, true, true] [0, 1] 2 (by decide) (by decide) (by decide) (by intro n; simp; omega) (by decide) (by decide)
  obtain ⟨_, e3, e4⟩ := newTT_explicit "0110".toList [false, true, true, false] [0, 1] 2 (by decide) (by decide) (by decide) (by intro n; simp; omega) (by decide) (by decide)
  obtain ⟨b, c, h1, _, h2⟩ := C120_find_segments e2.reach (fuel := 9) (by decide) (order := id) (fun l => .refl l)
  obtain ⟨b', d, h3, _, h4⟩ := C120_find_segments e4.reach (fuel := 9) (by decide) (order := id) (fun l => .refl l)
  refine ⟨_, _, c, d, e1 (by decide), e3 (by decide), e2.reach, e4.reach, ?_, ?_⟩
  · rw [h1]
    have : b = true := by
      rw [h2, show Boolf.fullspots _ = [1, 2, 3] by decide]
      refine ⟨⟨⟨1, by simp⟩, ?_⟩, ?_⟩
      · have s1 : SpotStep (· ∈ [1, 2, 3]) 1 3 := ⟨by simp, by simp, 1, by decide⟩
        have s2 : SpotStep (· ∈ [1, 2, 3]) 3 1 := ⟨by simp, by simp, 1, by decide⟩
        have s3 : SpotStep (· ∈ [1, 2, 3]) 2 3 := ⟨by simp, by simp, 0, by decide⟩
        have s4 : SpotStep (· ∈ [1, 2, 3]) 3 2 := ⟨by simp, by simp, 0, by decide⟩
        intro s t hs ht
        have to3 : Relation.ReflTransGen (SpotStep (· ∈ [1, 2, 3])) s 3 := by
          simp only [List.mem_cons, List.not_mem_nil, or_false] at hs
          rcases hs with rfl | rfl | rfl
          · exact .single s1
          · exact .single s3
          · exact .refl
        refine to3.trans ?_
        simp only [List.mem_cons, List.not_mem_nil, or_false] at ht
        rcases ht with rfl | rfl | rfl
        · exact .single s2
        · exact .single s4
        · exact .refl
      · intro k a b ha hb
        have : a = b := by
          have := isLink_0111 ha
          have := isLink_0111 hb
          omega
        rw [this]
    rw [this]
  · rw [h3]
    have : b' = false := by
      rw [← Bool.not_eq_true, h4, show Boolf.fullspots _ = [1, 2] by decide]
      rintro ⟨⟨_, h⟩, _⟩
      have := h 1 2 (by simp) (by simp)
      rcases Relation.ReflTransGen.cases_head this with h | ⟨t, ⟨_, h1, k, h2⟩, _⟩
      · omega
      · simp only [List.mem_cons, List.not_mem_nil, or_false] at h1
        rcases h1 with rfl | rfl
        · have e : 2 ^ k = 1 ^^^ (1 ^^^ 2 ^ k) := by rw [← Nat.xor_assoc, Nat.xor_self, Nat.zero_xor]
          rw [← h2] at e
          have := Nat.two_pow_pos k
          simp at e
        · have e : 2 ^ k = 1 ^^^ (1 ^^^ 2 ^ k) := by rw [← Nat.xor_assoc, Nat.xor_self, Nat.zero_xor]
          rw [← h2] at e
          match k with
          | 0 => simp at e
          | k + 1 => rw [Nat.pow_succ] at e; simp at e; omega
    rw [this]

end Verif.BF
