import Mathlib.Data.List.Basic
import Mathlib.Data.List.Nodup
import Verif.Py.Basic
import Verif.Py.Lemmas

/-! # Model of a/key_tuples and a/flatten; properties C130 and C131 -/

namespace Verif.A
open Verif.Py

/-! ## Model of `key_tuples` -/

/-- nested lists and dictionaries (with integers as keys, in insertion order) of things that are neither -/
inductive Nest
  | leaf (v : Int)
  | list (l : List Nest)
  | dict (d : List (Int × Nest))

/-- a/key_tuples/ex.py:1-10 -/
inductive KeyTuplesErr
  | argNotContainer | itemNotContainer | itemEmptyContainer
deriving DecidableEq, Repr

/-- a/key_tuples/__init__.py:22-33; what is appended for one item, from the outcome of the recursive call -/
def keyTuplesStep (key : Int) : Except KeyTuplesErr (List (List Int)) → Except KeyTuplesErr (List (List Int))
  | .ok nestedTuples => .ok (nestedTuples.map (key :: ·))
  | .error .itemNotContainer => .ok [[key]]
  | .error .itemEmptyContainer => .ok [[key]]
  | .error e => .error e

mutual
/-- a/key_tuples/__init__.py:6-35 for the recursive call -/
def keyTuplesRec : Nest → Except KeyTuplesErr (List (List Int))
  | .leaf _ => .error .itemNotContainer
  | .list [] => .error .itemEmptyContainer
  | .list (x :: l) => keyTuplesList 0 (x :: l)
  | .dict [] => .error .itemEmptyContainer
  | .dict (x :: d) => keyTuplesDict (x :: d)

/-- a/key_tuples/__init__.py:20-33 for the remaining entries of a list -/
def keyTuplesList : Int → List Nest → Except KeyTuplesErr (List (List Int))
  | _, [] => .ok []
  | key, val :: l => do
    let new ← keyTuplesStep key (keyTuplesRec val)
    let rest ← keyTuplesList (key + 1) l
    return new ++ rest

/-- a/key_tuples/__init__.py:20-33 for the remaining items of a dictionary -/
def keyTuplesDict : List (Int × Nest) → Except KeyTuplesErr (List (List Int))
  | [] => .ok []
  | (key, val) :: d => do
    let new ← keyTuplesStep key (keyTuplesRec val)
    let rest ← keyTuplesDict d
    return new ++ rest
end

/-- a/key_tuples/__init__.py:6-35 -/
def keyTuples : Nest → Except KeyTuplesErr (List (List Int))
  | .leaf _ => .error .argNotContainer
  | .list [] => .ok []
  | .list (x :: l) => keyTuplesList 0 (x :: l)
  | .dict [] => .ok []
  | .dict (x :: d) => keyTuplesDict (x :: d)

/-! ## What it should be -/

/-- `container[key]` (with a key that is not negative in the case of a list) -/
def Nest.item? : Nest → Int → Option Nest
  | .leaf _, _ => none
  | .list l, k => if 0 ≤ k then l[k.toNat]? else none
  | .dict d, k => Dict.get? d k

/-- `container[key1][key2]...` -/
def Nest.path? : Nest → List Int → Option Nest
  | n, [] => some n
  | n, k :: p => (n.item? k).bind fun m => m.path? p

/-- a container with elements -/
def Nest.Inner : Nest → Prop
  | .leaf _ => False
  | .list l => l ≠ []
  | .dict d => d ≠ []

/-- python dictionaries have no key twice -/
inductive Nest.Proper : Nest → Prop
  | leaf (v : Int) : Proper (.leaf v)
  | list (l : List Nest) : (∀ x ∈ l, Proper x) → Proper (.list l)
  | dict (d : List (Int × Nest)) : (d.map Prod.fst).Nodup → (∀ p ∈ d, Proper p.2) → Proper (.dict d)

/-- the keys in the order of the container -/
def Nest.keys : Nest → List Int
  | .leaf _ => []
  | .list l => (List.range l.length).map fun i : Nat => (i : Int)
  | .dict d => d.map Prod.fst

/-- one place comes before another: at the first difference its key comes first -/
def Nest.Ahead : Nest → List Int → List Int → Prop
  | n, k :: p, k' :: p' => (k = k' ∧ ∃ m, n.item? k = some m ∧ m.Ahead p p') ∨ (k ≠ k' ∧ [k, k'].Sublist n.keys)
  | _, _, _ => False

/-- a place in the container, and something without elements is there -/
def Nest.LeafAt (n : Nest) (t : List Int) : Prop := ∃ m, n.path? t = some m ∧ ¬ m.Inner

/-! ## Lemmas -/

/-- the tuples for one item -/
def itemTuples (key : Int) (val : Nest) : List (List Int) :=
  match keyTuplesRec val with
  | .ok t => t.map (key :: ·)
  | .error _ => [[key]]

theorem item_step (key : Int) (val : Nest) (h : keyTuplesRec val ≠ .error .argNotContainer) : keyTuplesStep key (keyTuplesRec val) = .ok (itemTuples key val) := by
  unfold itemTuples
  cases hk : keyTuplesRec val with
  | ok t => rfl
  | error e =>
    cases e with
    | argNotContainer => exact absurd hk h
    | itemNotContainer => rfl
    | itemEmptyContainer => rfl

mutual
theorem rec_result : ∀ n : Nest, (n.Inner → ∃ r, keyTuplesRec n = .ok r) ∧ (¬ n.Inner → keyTuplesRec n = .error .itemNotContainer ∨ keyTuplesRec n = .error .itemEmptyContainer)
  | .leaf _ => ⟨fun h => h.elim, fun _ => .inl (by rw [keyTuplesRec])⟩
  | .list [] => ⟨fun h => absurd rfl h, fun _ => .inr (by rw [keyTuplesRec])⟩
  | .dict [] => ⟨fun h => absurd rfl h, fun _ => .inr (by rw [keyTuplesRec])⟩
  | .list (x :: l) => ⟨fun _ => by rw [keyTuplesRec]; exact ⟨_, list_result 0 (x :: l)⟩, fun h => absurd (List.cons_ne_nil x l) h⟩
  | .dict (x :: d) => ⟨fun _ => by rw [keyTuplesRec]; exact ⟨_, dict_result (x :: d)⟩, fun h => absurd (List.cons_ne_nil x d) h⟩

theorem rec_not_arg (n : Nest) : keyTuplesRec n ≠ .error .argNotContainer := by
  intro h
  by_cases hi : n.Inner
  · obtain ⟨r, hr⟩ := (rec_result n).1 hi
    rw [hr] at h; cases h
  · rcases (rec_result n).2 hi with h' | h' <;> (rw [h'] at h; cases h)

theorem list_result : ∀ (k : Int) (l : List Nest), keyTuplesList k l = .ok ((l.zipIdx).flatMap fun p => itemTuples (k + p.2) p.1)
  | _, [] => by rw [keyTuplesList]; rfl
  | k, x :: l => by
    rw [keyTuplesList, item_step k x (rec_not_arg x), list_result (k + 1) l]
    simp only [bind, Except.bind, pure, Except.pure, Except.ok.injEq, List.zipIdx_cons, List.flatMap_cons]
    congr 1
    · simp
    · rw [List.zipIdx_succ, List.flatMap_map]
      congr 1
      funext p
      congr 1
      push_cast
      omega

theorem dict_result : ∀ d : List (Int × Nest), keyTuplesDict d = .ok (d.flatMap fun p => itemTuples p.1 p.2)
  | [] => by rw [keyTuplesDict]; rfl
  | (k, x) :: d => by
    rw [keyTuplesDict, item_step k x (rec_not_arg x), dict_result d]
    rfl
end

/-- keys and values in the order of the container -/
def Nest.items : Nest → List (Int × Nest)
  | .leaf _ => []
  | .list l => l.zipIdx.map fun p => ((p.2 : Int), p.1)
  | .dict d => d

theorem rec_inner {n : Nest} (h : n.Inner) : keyTuplesRec n = .ok (n.items.flatMap fun p => itemTuples p.1 p.2) := by
  match n, h with
  | .leaf _, h => exact h.elim
  | .list [], h => exact absurd rfl h
  | .dict [], h => exact absurd rfl h
  | .list (x :: l), _ =>
    rw [keyTuplesRec, list_result]
    simp only [Nest.items, List.flatMap_map, Int.zero_add]
  | .dict (x :: d), _ =>
    rw [keyTuplesRec, dict_result]
    rfl

theorem keys_items (n : Nest) : n.items.map Prod.fst = n.keys := by
  match n with
  | .leaf _ => rfl
  | .list l =>
    simp only [Nest.items, Nest.keys, List.map_map]
    rw [List.range_eq_range', ← List.zipIdx_map_snd 0 l, List.map_map]
    rfl
  | .dict d => rfl

theorem Nest.Proper.keys {n : Nest} (h : n.Proper) : n.keys.Nodup := by
  cases h with
  | leaf v => exact List.nodup_nil
  | list l _ =>
    refine List.nodup_range.map ?_
    intro a b h
    exact Int.ofNat.inj h
  | dict d h _ => exact h

theorem Nest.Proper.item {n m : Nest} {k : Int} (h : n.Proper) : n.item? k = some m ↔ (k, m) ∈ n.items := by
  cases h with
  | leaf v => simp [Nest.item?, Nest.items]
  | list l _ =>
    simp only [Nest.item?, Nest.items, List.mem_map, Prod.mk.injEq, Prod.exists]
    constructor
    · intro h
      split at h
      · next hk => exact ⟨m, k.toNat, by simpa [List.mem_zipIdx_iff_getElem?] using h, by omega, rfl⟩
      · cases h
    · rintro ⟨a, i, h, rfl, rfl⟩
      rw [if_pos (by omega)]
      simpa [List.mem_zipIdx_iff_getElem?] using h
  | dict d h _ => exact Dict.get?_iff_mem h

theorem Nest.Proper.proper {n m : Nest} {k : Int} (h : n.Proper) (hm : (k, m) ∈ n.items) : m.Proper := by
  cases h with
  | leaf v => cases hm
  | list l hl =>
    simp only [Nest.items, List.mem_map, Prod.mk.injEq, Prod.exists] at hm
    obtain ⟨a, i, h, rfl, rfl⟩ := hm
    exact hl _ (List.mem_of_getElem? (by simpa [List.mem_zipIdx_iff_getElem?] using h))
  | dict d _ hd => exact hd _ hm

theorem leafAt_cons {n : Nest} (hn : n.Proper) {k : Int} {p : List Int} : n.LeafAt (k :: p) ↔ ∃ m, (k, m) ∈ n.items ∧ m.LeafAt p := by
  unfold Nest.LeafAt
  simp only [Nest.path?, Option.bind_eq_some_iff, hn.item]
  constructor
  · rintro ⟨m', ⟨m, h1, h2⟩, h3⟩
    exact ⟨m, h1, m', h2, h3⟩
  · rintro ⟨m, h1, m', h2, h3⟩
    exact ⟨m', ⟨m, h1, h2⟩, h3⟩

theorem leafAt_nil {n : Nest} : n.LeafAt [] ↔ ¬ n.Inner := by
  unfold Nest.LeafAt
  simp [Nest.path?]

theorem items_of_not_inner {n : Nest} (h : ¬ n.Inner) : n.items = [] := by
  match n, h with
  | .leaf _, _ => rfl
  | .list [], _ => rfl
  | .dict [], _ => rfl
  | .list (x :: l), h => exact absurd (List.cons_ne_nil x l) h
  | .dict (x :: l), h => exact absurd (List.cons_ne_nil x l) h

theorem mem_itemTuples_le : ∀ (N : Nat) (t : List Int) (k : Int) (v : Nest), t.length ≤ N → v.Proper → (t ∈ itemTuples k v ↔ ∃ p, t = k :: p ∧ v.LeafAt p)
  | 0, t, k, v, hN, hv => by
    rw [List.length_eq_zero_iff.1 (Nat.le_zero.1 hN)]
    unfold itemTuples
    split <;> simp
  | N + 1, t, k, v, hN, hv => by
    unfold itemTuples
    by_cases hi : v.Inner
    · rw [rec_inner hi]
      simp only [List.mem_map, List.mem_flatMap, Prod.exists]
      constructor
      · rintro ⟨p, ⟨k', m, hm, hp⟩, rfl⟩
        have := (mem_itemTuples_le N p k' m (by simpa using hN) (hv.proper hm)).1 hp
        obtain ⟨q, rfl, hq⟩ := this
        exact ⟨_, rfl, (leafAt_cons hv).2 ⟨m, hm, hq⟩⟩
      · rintro ⟨p, rfl, hp⟩
        match p, hp with
        | [], hp => exact absurd hi (leafAt_nil.1 hp)
        | k' :: q, hp =>
          obtain ⟨m, hm, hq⟩ := (leafAt_cons hv).1 hp
          exact ⟨k' :: q, ⟨k', m, hm, (mem_itemTuples_le N (k' :: q) k' m (by simpa using hN) (hv.proper hm)).2 ⟨q, rfl, hq⟩⟩, rfl⟩
    · have he : ∃ e, keyTuplesRec v = .error e := by
        rcases (rec_result v).2 hi with h | h <;> exact ⟨_, h⟩
      obtain ⟨e, he⟩ := he
      rw [he]
      simp only [List.mem_singleton]
      constructor
      · rintro rfl
        exact ⟨[], rfl, leafAt_nil.2 hi⟩
      · rintro ⟨p, rfl, hp⟩
        match p, hp with
        | [], _ => rfl
        | k' :: q, hp =>
          obtain ⟨m, hm, _⟩ := (leafAt_cons hv).1 hp
          rw [items_of_not_inner hi] at hm
          cases hm

theorem mem_itemTuples (t : List Int) (k : Int) (v : Nest) (hv : v.Proper) : t ∈ itemTuples k v ↔ ∃ p, t = k :: p ∧ v.LeafAt p := mem_itemTuples_le t.length t k v (Nat.le_refl _) hv

theorem ahead_items {n : Nest} (hn : n.Proper) (ih : ∀ k m, (k, m) ∈ n.items → (itemTuples k m).Pairwise fun t t' => ∃ p p', t = k :: p ∧ t' = k :: p' ∧ m.Ahead p p') :
    (n.items.flatMap fun p => itemTuples p.1 p.2).Pairwise n.Ahead := by
  rw [List.pairwise_flatMap]
  refine ⟨?_, ?_⟩
  · rintro ⟨k, m⟩ hm
    refine (ih k m hm).imp ?_
    rintro t t' ⟨p, p', rfl, rfl, h⟩
    exact .inl ⟨rfl, m, hn.item.2 hm, h⟩
  · have hk := hn.keys
    rw [← keys_items] at hk
    rw [List.pairwise_iff_forall_sublist]
    rintro ⟨k, m⟩ ⟨k', m'⟩ hs t ht t' ht'
    have hm : (k, m) ∈ n.items := hs.subset (by simp)
    have hm' : (k', m') ∈ n.items := hs.subset (by simp)
    obtain ⟨p, rfl, _⟩ := (mem_itemTuples _ _ _ (hn.proper hm)).1 ht
    obtain ⟨p', rfl, _⟩ := (mem_itemTuples _ _ _ (hn.proper hm')).1 ht'
    have hsk := hs.map Prod.fst
    rw [keys_items] at hsk
    refine .inr ⟨?_, hsk⟩
    have := hn.keys.sublist hsk
    simpa using this

theorem ahead_itemTuples {m : Nest} (h : m.Proper) : ∀ k, (itemTuples k m).Pairwise fun t t' => ∃ p p', t = k :: p ∧ t' = k :: p' ∧ m.Ahead p p' := by
  have key : ∀ {m : Nest}, m.Proper → (∀ k v, (k, v) ∈ m.items → (itemTuples k v).Pairwise fun t t' => ∃ p p', t = k :: p ∧ t' = k :: p' ∧ v.Ahead p p') →
      ∀ k, (itemTuples k m).Pairwise fun t t' => ∃ p p', t = k :: p ∧ t' = k :: p' ∧ m.Ahead p p' := by
    intro m h ih k
    unfold itemTuples
    by_cases hi : m.Inner
    · rw [rec_inner hi]
      dsimp only
      rw [List.pairwise_map]
      refine (ahead_items h ih).imp ?_
      intro p p' hp
      exact ⟨p, p', rfl, rfl, hp⟩
    · have he : ∃ e, keyTuplesRec m = .error e := by
        rcases (rec_result m).2 hi with h | h <;> exact ⟨_, h⟩
      obtain ⟨e, he⟩ := he
      rw [he]
      simp
  induction h with
  | leaf v => exact key (.leaf v) (by intro k m hm; cases hm)
  | list l hl ih =>
    refine key (.list l hl) ?_
    intro k m hm
    simp only [Nest.items, List.mem_map, Prod.mk.injEq, Prod.exists] at hm
    obtain ⟨a, i, h, rfl, rfl⟩ := hm
    exact ih _ (List.mem_of_getElem? (by simpa [List.mem_zipIdx_iff_getElem?] using h)) _
  | dict d h1 h2 ih =>
    refine key (.dict d h1 h2) ?_
    intro k m hm
    exact ih _ hm _

/-! ## Theorems -/

theorem keyTuples_eq {n : Nest} (h : ∀ v, n ≠ .leaf v) : keyTuples n = .ok (n.items.flatMap fun p => itemTuples p.1 p.2) := by
  by_cases hi : n.Inner
  · have := rec_inner hi
    match n, hi, this with
    | .list (x :: l), _, this => rw [keyTuplesRec] at this; exact this
    | .dict (x :: l), _, this => rw [keyTuplesRec] at this; exact this
  · match n, hi with
    | .leaf v, _ => exact absurd rfl (h v)
    | .list [], _ => rfl
    | .dict [], _ => rfl
    | .list (x :: l), hi => exact absurd (List.cons_ne_nil x l) hi
    | .dict (x :: l), hi => exact absurd (List.cons_ne_nil x l) hi

/-- **C130.** `key_tuples(container)` consists of the sequences of keys that lead from the container to something without elements; they are in the order of the keys, so each of them is there once. -/
theorem C130_key_tuples (n : Nest) (hp : n.Proper) (hc : ∀ v, n ≠ .leaf v) : ∃ r, keyTuples n = .ok r ∧
    (∀ t, t ∈ r ↔ t ≠ [] ∧ ∃ m, n.path? t = some m ∧ ¬ m.Inner) ∧ r.Pairwise n.Ahead ∧ r.Nodup := by
  refine ⟨_, keyTuples_eq hc, fun t => ?_, ?_⟩
  · rw [List.mem_flatMap]
    constructor
    · rintro ⟨⟨k, m⟩, hm, ht⟩
      obtain ⟨p, rfl, h⟩ := (mem_itemTuples _ _ _ (hp.proper hm)).1 ht
      exact ⟨by simp, (leafAt_cons hp).2 ⟨m, hm, h⟩⟩
    · rintro ⟨ht, h⟩
      match t, ht, h with
      | k :: p, _, h =>
        obtain ⟨m, hm, h'⟩ := (leafAt_cons hp).1 h
        exact ⟨(k, m), hm, (mem_itemTuples _ _ _ (hp.proper hm)).2 ⟨p, rfl, h'⟩⟩
  · have ha := ahead_items hp fun k m hm => ahead_itemTuples (hp.proper hm) k
    refine ⟨ha, ha.imp ?_⟩
    have irrefl : ∀ (t : List Int) (n : Nest), ¬ n.Ahead t t := by
      intro t
      induction t with
      | nil => intro n h; exact h
      | cons k p ih =>
        rintro n (⟨_, m, _, h⟩ | ⟨h, _⟩)
        · exact ih m h
        · exact h rfl
    rintro t t' h rfl
    exact irrefl t n h

/-- **C130.** Anything that is not a list or dictionary is refused; the exceptions that are used for control flow do not escape. -/
theorem C130_errors (n : Nest) (e : KeyTuplesErr) : keyTuples n = .error e ↔ e = .argNotContainer ∧ ∃ v, n = .leaf v := by
  constructor
  · intro h
    by_cases hv : ∃ v, n = .leaf v
    · obtain ⟨v, rfl⟩ := hv
      cases h
      exact ⟨rfl, v, rfl⟩
    · rw [keyTuples_eq fun v hn => hv ⟨v, hn⟩] at h
      cases h
  · rintro ⟨rfl, v, rfl⟩
    rfl

example : keyTuples (.list [.leaf 7, .dict [(5, .leaf 1), (3, .list [.leaf 0, .leaf 0]), (4, .list [])], .leaf 2]) = .ok [[0], [1, 5], [1, 3, 0], [1, 3, 1], [1, 4], [2]] := by decide +kernel

example : Nest.Proper (.list [.leaf 7, .dict [(5, .leaf 1), (3, .list [])]]) := by
  refine .list _ ?_
  simp only [List.forall_mem_cons]
  refine ⟨.leaf 7, .dict _ (by decide) ?_, by simp⟩
  simp only [List.forall_mem_cons]
  exact ⟨.leaf 1, .list _ (by simp), by simp⟩

/-! ## `flatten` -/

/-- nested lists and tuples of things that are neither -/
inductive Seq
  | leaf (v : Int)
  | list (l : List Seq)
  | tuple (l : List Seq)

/-- a/flatten/__init__.py:1-11 -/
def flattenSeq : List Seq → List Seq
  | [] => []
  | .list l :: rest => flattenSeq l ++ flattenSeq rest
  | .tuple l :: rest => flattenSeq l ++ flattenSeq rest
  | .leaf v :: rest => .leaf v :: flattenSeq rest

theorem flattenSeq_append : ∀ l m : List Seq, flattenSeq (l ++ m) = flattenSeq l ++ flattenSeq m
  | [], m => by simp [flattenSeq]
  | .list l :: rest, m => by rw [List.cons_append, flattenSeq, flattenSeq, flattenSeq_append rest m, List.append_assoc]
  | .tuple l :: rest, m => by rw [List.cons_append, flattenSeq, flattenSeq, flattenSeq_append rest m, List.append_assoc]
  | .leaf v :: rest, m => by rw [List.cons_append, flattenSeq, flattenSeq, flattenSeq_append rest m, List.cons_append]

/-- **C131.** The result of `flatten` contains no list or tuple. -/
theorem C131_flat : ∀ (l : List Seq), ∀ x ∈ flattenSeq l, ∃ v, x = .leaf v
  | [], x, h => by simp [flattenSeq] at h
  | .list l :: rest, x, h => by
    rw [flattenSeq, List.mem_append] at h
    rcases h with h | h
    · exact C131_flat l x h
    · exact C131_flat rest x h
  | .tuple l :: rest, x, h => by
    rw [flattenSeq, List.mem_append] at h
    rcases h with h | h
    · exact C131_flat l x h
    · exact C131_flat rest x h
  | .leaf v :: rest, x, h => by
    rw [flattenSeq, List.mem_cons] at h
    rcases h with h | h
    · exact ⟨v, h⟩
    · exact C131_flat rest x h

/-- **C131.** What contains no list or tuple is not changed. -/
theorem C131_identity : ∀ l : List Seq, (∀ x ∈ l, ∃ v, x = .leaf v) → flattenSeq l = l
  | [], _ => by rw [flattenSeq]
  | x :: l, h => by
    obtain ⟨v, rfl⟩ := h x (by simp)
    rw [flattenSeq, C131_identity l fun y hy => h y (by simp [hy])]

/-- **C131.** The brackets do not matter: when a list or tuple among the elements is replaced by its own elements, the result is the same. -/
theorem C131_brackets (l m r : List Seq) : flattenSeq (l ++ .list m :: r) = flattenSeq (l ++ m ++ r) ∧ flattenSeq (l ++ .tuple m :: r) = flattenSeq (l ++ m ++ r) := by
  simp only [flattenSeq_append, flattenSeq, List.append_assoc, and_self]

/-- **C131.** Flattening twice is the same as flattening once. -/
theorem C131_idempotent (l : List Seq) : flattenSeq (flattenSeq l) = flattenSeq l := C131_identity _ (C131_flat l)

example : flattenSeq [.leaf 4, .list [.leaf 1, .tuple [.leaf 2], .list []], .leaf 3] = [.leaf 4, .leaf 1, .leaf 2, .leaf 3] := by simp [flattenSeq]

end Verif.A
