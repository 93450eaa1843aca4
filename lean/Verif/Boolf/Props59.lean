import Verif.Boolf.Model16
import Verif.Boolf.Props56
import Verif.Boolf.Props57

/-!
# C113: the signed permutations in `ec_clan_matrix`
-/

namespace Verif.BF
open Verif.Py Verif.BV Verif.P Verif.W Verif.SP
open Verif.A hiding Mat

/-! ## dictionaries of sets -/

/-- A dictionary of ascending lists that contains a relation: `x` is in the list of the key `k` iff `R k x`.  No list is empty, and the keys ascend. -/
structure ListsOf {β : Type} (lt : β → β → Prop) (R : Nat → β → Prop) (d : Dict Nat (List β)) : Prop where
  keys : d.keys.Pairwise (· < ·)
  asc : ∀ e ∈ d, e.2.Pairwise lt
  nonempty : ∀ e ∈ d, e.2 ≠ []
  mem : ∀ k x, (∃ l, (k, l) ∈ d ∧ x ∈ l) ↔ R k x

structure SetsOf {β : Type} (R : Nat → β → Prop) (d : Dict Nat (List β)) : Prop where
  keys : d.keys.Nodup
  nodup : ∀ e ∈ d, e.2.Nodup
  nonempty : ∀ e ∈ d, e.2 ≠ []
  mem : ∀ k x, (∃ l, (k, l) ∈ d ∧ x ∈ l) ↔ R k x

theorem SetsOf.addTo {β : Type} [DecidableEq β] {R : Nat → β → Prop} {d : Dict Nat (List β)} (h : SetsOf R d) (k : Nat) (x : β) :
    SetsOf (fun k' x' => R k' x' ∨ k' = k ∧ x' = x) (addTo d k x) := by
  obtain ⟨s, hs⟩ : ∃ s, s = (d.get? k).getD [] := ⟨_, rfl⟩
  have hsn : s.Nodup := by
    rw [hs]
    cases hg : d.get? k with
    | none => exact List.nodup_nil
    | some l => exact h.nodup _ (Dict.get?_mem hg)
  have hk := Dict.nodup_keys_set h.keys k (if x ∈ s then s else s ++ [x])
  have hmem : ∀ k' l, (k', l) ∈ BF.addTo d k x ↔ if k = k' then l = (if x ∈ s then s else s ++ [x]) else (k', l) ∈ d := by
    intro k' l
    unfold BF.addTo
    rw [← hs, ← Dict.get?_iff_mem hk, Dict.get?_set]
    split
    · rw [Option.some.injEq, eq_comm]
    · rw [Dict.get?_iff_mem h.keys]
  have hsm : ∀ x', x' ∈ s ↔ R k x' := by
    intro x'
    rw [← h.mem k x', hs]
    cases hg : d.get? k with
    | none =>
      constructor
      · intro h; cases h
      · rintro ⟨l, hl, _⟩
        rw [(Dict.get?_iff_mem h.keys).2 hl] at hg
        cases hg
    | some l =>
      constructor
      · intro hx; exact ⟨l, Dict.get?_mem hg, hx⟩
      · rintro ⟨l', hl, hx⟩
        rw [(Dict.get?_iff_mem h.keys).2 hl] at hg
        cases hg
        exact hx
  refine ⟨by unfold BF.addTo; rw [← hs]; exact hk, fun e he => ?_, fun e he => ?_, fun k' x' => ?_⟩
  · have := (hmem e.1 e.2).1 he
    split at this
    · rw [this]
      split
      · exact hsn
      · rename_i hx
        rw [List.nodup_append]
        refine ⟨hsn, by simp, ?_⟩
        intro a ha b hb
        rw [List.mem_singleton.1 hb]
        rintro rfl
        exact hx ha
    · exact h.nodup _ this
  · have := (hmem e.1 e.2).1 he
    split at this
    · rw [this]
      split
      · rename_i hx; exact List.ne_nil_of_mem hx
      · simp
    · exact h.nonempty _ this
  · simp only [hmem]
    by_cases hkk : k = k'
    · subst hkk
      simp only [if_true, exists_eq_left, true_and]
      split
      · rename_i hx
        rw [hsm]
        constructor
        · exact .inl
        · rintro (h | rfl)
          · exact h
          · exact (hsm _).1 hx
      · rw [List.mem_append, hsm, List.mem_singleton]
    · simp only [hkk, if_false, h.mem]
      constructor
      · exact .inl
      · rintro (h | ⟨h, _⟩)
        · exact h
        · exact absurd h.symm hkk

theorem SetsOf.congr {β : Type} {R R' : Nat → β → Prop} {d : Dict Nat (List β)} (h : SetsOf R d) (hR : ∀ k x, R k x ↔ R' k x) : SetsOf R' d :=
  ⟨h.keys, h.nodup, h.nonempty, fun k x => (h.mem k x).trans (hR k x)⟩

theorem ListsOf.congr {β : Type} {lt : β → β → Prop} {R R' : Nat → β → Prop} {d : Dict Nat (List β)} (h : ListsOf lt R d) (hR : ∀ k x, R k x ↔ R' k x) :
    ListsOf lt R' d :=
  ⟨h.keys, h.asc, h.nonempty, fun k x => (h.mem k x).trans (hR k x)⟩

theorem dictOfLists_spec {β : Type} {lt : β → β → Prop} {sort : List β → List β} (hp : ∀ l, (sort l).Perm l) (ha : ∀ l, l.Nodup → (sort l).Pairwise lt)
    {R : Nat → β → Prop} {d : Dict Nat (List β)} (h : SetsOf R d) : ∃ d', dictOfLists sort d = .ok d' ∧ ListsOf lt R d' := by
  have hpk : (sorted d.keys).Pairwise (· < ·) :=
    ((sorted_pairwise _).and ((sorted_perm _).nodup_iff.2 h.keys)).imp fun h => lt_of_le_of_ne h.1 h.2
  set l := (sorted d.keys).map fun k => (k, sort ((d.get? k).getD [])) with hl
  have hlk : Dict.keys l = sorted d.keys := by
    rw [hl]; unfold Dict.keys; rw [List.map_map]
    exact (List.map_congr_left fun _ _ => rfl).trans (List.map_id _)
  have hmem : ∀ e, e ∈ l ↔ ∃ s, (e.1, s) ∈ d ∧ e.2 = sort s := by
    rintro ⟨k, x⟩
    rw [hl, List.mem_map]
    constructor
    · rintro ⟨k', hk', he⟩
      cases he
      obtain ⟨v, hv⟩ := Dict.mem_keys_iff.1 (mem_sorted.1 hk')
      exact ⟨v, Dict.get?_mem hv, by rw [hv]; rfl⟩
    · rintro ⟨s, hs, hx⟩
      have hg := (Dict.get?_iff_mem h.keys).2 hs
      exact ⟨k, mem_sorted.2 (Dict.mem_keys_iff.2 ⟨s, hg⟩), by rw [hg]; simpa using hx.symm⟩
  refine ⟨l, ?_, by rw [hlk]; exact hpk, fun e he => ?_, fun e he => ?_, fun k x => ?_⟩
  · unfold dictOfLists
    rw [mapM_ok (g := fun k => (k, sort ((d.get? k).getD [])))]
    · show Except.ok (Dict.ofPairs l) = _
      rw [Dict.ofPairs_of_nodup]
      rw [hlk]
      exact hpk.imp ne_of_lt
    · intro k hk
      obtain ⟨v, hv⟩ := Dict.mem_keys_iff.1 (mem_sorted.1 hk)
      unfold dictGet
      rw [hv]
      rfl
  · obtain ⟨s, hs, he⟩ := (hmem e).1 he
    rw [he]
    exact ha _ (h.nodup _ hs)
  · obtain ⟨s, hs, he⟩ := (hmem e).1 he
    rw [he]
    intro h0
    have := hp s
    rw [h0] at this
    exact h.nonempty _ hs this.nil_eq.symm
  · rw [← h.mem]
    constructor
    · rintro ⟨y, hy, hx⟩
      obtain ⟨s, hs, he⟩ := (hmem _).1 hy
      exact ⟨s, hs, (hp s).mem_iff.1 (by rw [← he]; exact hx)⟩
    · rintro ⟨s, hs, hx⟩
      exact ⟨sort s, (hmem _).2 ⟨s, hs, rfl⟩, (hp s).mem_iff.2 hx⟩

theorem sorted_asc {l : List Nat} (h : l.Nodup) : (sorted l).Pairwise (· < ·) :=
  ((sorted_pairwise _).and ((sorted_perm _).nodup_iff.2 h)).imp fun h => lt_of_le_of_ne h.1 h.2

/-- the order of triples: lexicographic -/
def tripleLt (x y : Nat × Nat × Nat) : Prop := x.1 < y.1 ∨ x.1 = y.1 ∧ (x.2.1 < y.2.1 ∨ x.2.1 = y.2.1 ∧ x.2.2 < y.2.2)

theorem sortedTriples_asc {l : List (Nat × Nat × Nat)} (h : l.Nodup) : (sortedTriples l).Pairwise tripleLt := by
  have : Std.Total tripleLe := ⟨fun x y => by unfold tripleLe; omega⟩
  have : IsTrans _ tripleLe := ⟨fun x y z => by unfold tripleLe; omega⟩
  have hp : (sortedTriples l).Perm l := List.perm_insertionSort _ _
  refine ((List.pairwise_insertionSort tripleLe l).and (hp.nodup_iff.2 h)).imp ?_
  rintro ⟨a, b, c⟩ ⟨a', b', c'⟩ ⟨h1, h2⟩
  unfold tripleLe at h1
  unfold tripleLt
  simp only [ne_eq, Prod.mk.injEq] at h1 h2 ⊢
  omega

/-! ## the loops over the pairs -/

/-- what is added to the sets: faction, family, index, indices of `keyneg`, `perm` and `valneg` -/
structure Event where
  faction : Nat
  family : Nat
  zhe : Nat
  keyneg : Nat
  perm : Nat
  valneg : Nat

def IndexSets.addEvent (s : IndexSets) (e : Event) : IndexSets := s.add e.faction e.family e.zhe e.keyneg e.perm e.valneg

/-- the content of the five dictionaries -/
structure Contains (s : IndexSets) (E : Event → Prop) : Prop where
  factionKeynegs : SetsOf (fun a k => ∃ e, E e ∧ e.faction = a ∧ e.keyneg = k) s.factionKeynegs
  familyPerms : SetsOf (fun b p => ∃ e, E e ∧ e.family = b ∧ e.perm = p) s.familyPerms
  zheKeynegs : SetsOf (fun z k => ∃ e, E e ∧ e.zhe = z ∧ e.keyneg = k) s.zheKeynegs
  zheValnegs : SetsOf (fun z v => ∃ e, E e ∧ e.zhe = z ∧ e.valneg = v) s.zheValnegs
  zheTriples : SetsOf (fun z t => ∃ e, E e ∧ e.zhe = z ∧ (e.keyneg, e.perm, e.valneg) = t) s.zheTriples

theorem Contains.addEvent {s : IndexSets} {E : Event → Prop} (h : Contains s E) (e : Event) : Contains (s.addEvent e) (fun e' => E e' ∨ e' = e) := by
  have key : ∀ {β : Type} (π : Event → Nat) (ρ : Event → β) k x,
      ((∃ e', E e' ∧ π e' = k ∧ ρ e' = x) ∨ k = π e ∧ x = ρ e) ↔ ∃ e', (E e' ∨ e' = e) ∧ π e' = k ∧ ρ e' = x := by
    intro β π ρ k x
    constructor
    · rintro (⟨e', h1, h2⟩ | ⟨rfl, rfl⟩)
      · exact ⟨e', .inl h1, h2⟩
      · exact ⟨e, .inr rfl, rfl, rfl⟩
    · rintro ⟨e', h1 | rfl, h2, h3⟩
      · exact .inl ⟨e', h1, h2, h3⟩
      · exact .inr ⟨h2.symm, h3.symm⟩
  exact ⟨(h.factionKeynegs.addTo _ _).congr (key _ _), (h.familyPerms.addTo _ _).congr (key _ _), (h.zheKeynegs.addTo _ _).congr (key _ _),
    (h.zheValnegs.addTo _ _).congr (key _ _), (h.zheTriples.addTo _ _).congr (key Event.zhe fun e => (e.keyneg, e.perm, e.valneg))⟩

theorem Contains.congr {s : IndexSets} {E E' : Event → Prop} (h : Contains s E) (hE : ∀ e, E e ↔ E' e) : Contains s E' := by
  obtain rfl : E = E' := funext fun e => propext (hE e)
  exact h

theorem Contains.empty : Contains {} fun _ => False :=
  ⟨⟨List.nodup_nil, by simp, by simp, by simp⟩, ⟨List.nodup_nil, by simp, by simp, by simp⟩, ⟨List.nodup_nil, by simp, by simp, by simp⟩,
    ⟨List.nodup_nil, by simp, by simp, by simp⟩, ⟨List.nodup_nil, by simp, by simp, by simp⟩⟩

/-- what a pair adds -/
def eventOf (count : Nat) (κ : Nat → Nat) (a b z i : Nat) : Event := ⟨a, b, z, κ i, i % count, i / count⟩

theorem pairsLoop_spec {count : Nat} {κ : Nat → Nat} (a b z : Nat) (elements : List Nat)
    (h : ∀ i ∈ elements, ∃ σ, SG.new { valnegIndex := some (((i / count : Nat) : Int)), permIndex := some (((i % count : Nat) : Int)) } = .ok σ ∧ σ.keynegIndex = .ok (κ i))
    {s : IndexSets} {E : Event → Prop} (hs : Contains s E) :
    ∃ s', pairsLoop count a b z (elements.map Int.ofNat) s = .ok s' ∧ Contains s' fun e => E e ∨ ∃ i ∈ elements, e = eventOf count κ a b z i := by
  induction elements generalizing s E with
  | nil => exact ⟨s, rfl, hs.congr fun e => by simp⟩
  | cons i elements ih =>
    obtain ⟨σ, h1, h2⟩ := h i (by simp)
    have h1' : SG.new { valnegIndex := some (Int.ofNat i / (count : Int)), permIndex := some (Int.ofNat i % (count : Int)) } = .ok σ := h1
    obtain ⟨s', s1, s2⟩ := ih (fun j hj => h j (by simp [hj])) (hs.addEvent (eventOf count κ a b z i))
    refine ⟨s', ?_, s2.congr fun e => ?_⟩
    · rw [List.map_cons, pairsLoop, h1']
      simp only [bind, Except.bind, h2]
      exact s1
    · simp [or_assoc]

theorem memberLoop_spec {clan : EcPart} {N : Nat} {lab : Nat → Boolf} {κ : Nat → Nat} (hl : Labelling clan.part N lab) (a b : Nat) (zhes : List Nat)
    (h : ∀ i < N, ∃ σ, SG.new { valnegIndex := some (((i / clan.dims.getLastD 1 : Nat) : Int)), permIndex := some (((i % clan.dims.getLastD 1 : Nat) : Int)) } = .ok σ ∧
      σ.keynegIndex = .ok (κ i)) (hz : ∀ z ∈ zhes, ∃ i < N, (lab i).zhe = .ok z ∧ Reach (lab i))
    {s : IndexSets} {E : Event → Prop} (hs : Contains s E) :
    ∃ s', memberLoop clan a b zhes s = .ok s' ∧
      Contains s' fun e => E e ∨ ∃ z ∈ zhes, ∃ i < N, (lab i).zhe = .ok z ∧ Reach (lab i) ∧ e = eventOf (clan.dims.getLastD 1) κ a b z i := by
  classical
  induction zhes generalizing s E with
  | nil => exact ⟨s, rfl, hs.congr fun e => by simp⟩
  | cons z zhes ih =>
    obtain ⟨i, hi, hiz, hir⟩ := hz z (by simp)
    obtain ⟨g, g1, g2, g3, g4⟩ := C50_zhe_index z
    have hlab : lab i = g := g4 _ hir hiz
    have hb := hl.exists_block ⟨i, hi, hlab⟩
    obtain ⟨s1, e1, e2⟩ := pairsLoop_spec (count := clan.dims.getLastD 1) (κ := κ) a b z ((List.range N).filter fun i => decide (lab i = g)) (fun j hj => h j (by
      simpa using (List.mem_filter.1 hj).1)) hs
    obtain ⟨s2, e3, e4⟩ := ih (fun z' hz' => hz z' (by simp [hz'])) e2
    refine ⟨s2, ?_, e4.congr fun e => ?_⟩
    · rw [memberLoop, g1]
      simp only [bind, Except.bind, hb, e1]
      exact e3
    · have hiff : ∀ j, (j ∈ (List.range N).filter fun i => decide (lab i = g)) ↔ j < N ∧ (lab j).zhe = .ok z ∧ Reach (lab j) := by
        intro j
        simp only [List.mem_filter, List.mem_range, decide_eq_true_eq]
        refine and_congr_right fun _ => ⟨?_, fun ⟨h1, h2⟩ => g4 _ h2 h1⟩
        rintro rfl
        exact ⟨g3, g2⟩
      simp only [hiff, List.mem_cons, exists_eq_or_imp, or_assoc, and_assoc]

theorem splintersLoop_spec {clan : EcPart} {N : Nat} {lab : Nat → Boolf} {κ : Nat → Nat} (hl : Labelling clan.part N lab) (X : Dict (Nat × Nat) (List Nat))
    (h : ∀ i < N, ∃ σ, SG.new { valnegIndex := some (((i / clan.dims.getLastD 1 : Nat) : Int)), permIndex := some (((i % clan.dims.getLastD 1 : Nat) : Int)) } = .ok σ ∧
      σ.keynegIndex = .ok (κ i)) (hz : ∀ e ∈ X, ∀ z ∈ e.2, ∃ i < N, (lab i).zhe = .ok z ∧ Reach (lab i))
    {s : IndexSets} {E : Event → Prop} (hs : Contains s E) :
    ∃ s', splintersLoop clan X s = .ok s' ∧
      Contains s' fun e => E e ∨ ∃ a b L, ((a, b), L) ∈ X ∧ ∃ z ∈ L, ∃ i < N, (lab i).zhe = .ok z ∧ Reach (lab i) ∧ e = eventOf (clan.dims.getLastD 1) κ a b z i := by
  induction X generalizing s E with
  | nil => exact ⟨s, rfl, hs.congr fun e => by simp⟩
  | cons x X ih =>
    obtain ⟨⟨a, b⟩, L⟩ := x
    obtain ⟨s1, e1, e2⟩ := memberLoop_spec hl a b L h (hz ((a, b), L) List.mem_cons_self) hs
    obtain ⟨s2, e3, e4⟩ := ih (fun e he => hz e (by simp [he])) e2
    refine ⟨s2, ?_, e4.congr fun e => ?_⟩
    · rw [splintersLoop, e1]
      exact e3
    · rw [or_assoc]
      refine or_congr_right ?_
      constructor
      · rintro (h | ⟨a', b', L', hm, h⟩)
        · exact ⟨a, b, L, by simp, h⟩
        · exact ⟨a', b', L', by simp [hm], h⟩
      · rintro ⟨a', b', L', hm, h⟩
        rcases List.mem_cons.1 hm with hm | hm
        · cases hm
          exact .inl h
        · exact .inr ⟨a', b', L', hm, h⟩

end Verif.BF
