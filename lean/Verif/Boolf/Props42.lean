import Verif.Boolf.Model11
import Verif.Boolf.Props41

/-!
# C97: Sierpinski partitions and twins (`sierpinski_partition`, `sierpinski_twin`)
-/

namespace Verif.BF
open Verif.Py Verif.BV Verif.P Verif.W Verif.SP
open Verif.A hiding Mat

/-! ## partitions -/

/-- natural numbers below `2 ^ n` that differ only at the digits in `S` -/
def Differ (n : Nat) (S : List Nat) (x y : Int) : Prop :=
  ∃ a b : Nat, a < 2 ^ n ∧ b < 2 ^ n ∧ x = a ∧ y = b ∧ ∀ k, k ∉ S → a.testBit k = b.testBit k

theorem Differ.symm {n : Nat} {S : List Nat} {x y : Int} (h : Differ n S x y) : Differ n S y x := by
  obtain ⟨a, b, h1, h2, h3, h4, h5⟩ := h
  exact ⟨b, a, h2, h1, h4, h3, fun k hk => (h5 k hk).symm⟩

theorem Differ.trans {n : Nat} {S : List Nat} {x y z : Int} (h : Differ n S x y) (h' : Differ n S y z) : Differ n S x z := by
  obtain ⟨a, b, h1, h2, h3, h4, h5⟩ := h
  obtain ⟨b', c, k1, k2, k3, k4, k5⟩ := h'
  obtain rfl : b = b' := by omega
  exact ⟨a, c, h1, k2, h3, k4, fun k hk => (h5 k hk).trans (k5 k hk)⟩

theorem Differ.mono {n : Nat} {S T : List Nat} {x y : Int} (h : Differ n S x y) (hs : ∀ k ∈ S, k ∈ T) : Differ n T x y := by
  obtain ⟨a, b, h1, h2, h3, h4, h5⟩ := h
  exact ⟨a, b, h1, h2, h3, h4, fun k hk => h5 k fun hk' => hk (hs k hk')⟩

theorem atompatternGen_negate {a n : Nat} :
    (a < n → atompatternGen (a : Int) n true = .ok ((List.range (2 ^ n)).map fun i => !i.testBit a)) ∧
    (n ≤ a → atompatternGen (a : Int) n true = .error .assertion) := by
  have h := atompattern_spec (a : Int) n true
  rw [logicAbs_natCast, Int.toNat_natCast] at h
  unfold makeAtompattern at h
  constructor
  · intro hz
    have h1 := h.1 hz
    cases hg : atompatternGen (a : Int) n true with
    | error e => rw [hg] at h1; cases h1
    | ok v =>
      rw [hg] at h1
      simp only [bind, Except.bind, ofBools_eq] at h1
      rw [Binv.mk.inj (Except.ok.inj h1)]
      refine congrArg Except.ok (List.map_congr_left fun i _ => ?_)
      rw [decide_eq_false (by omega)]
      simp
  · intro hz
    have h1 := h.2 hz
    cases hg : atompatternGen (a : Int) n true with
    | error e => rw [hg] at h1; simp only [bind, Except.bind] at h1; cases h1; rfl
    | ok v => rw [hg] at h1; simp only [bind, Except.bind, ofBools_eq] at h1; cases h1

theorem zipIdx_map_range {α : Type} (n : Nat) (g : Nat → α) : ((List.range n).map g).zipIdx = (List.range n).map fun i => (g i, i) := by
  apply List.ext_getElem?
  intro i
  rw [List.getElem?_zipIdx, List.getElem?_map, List.getElem?_map]
  by_cases hi : i < n
  · rw [List.getElem?_range hi]; simp
  · rw [List.getElem?_eq_none (by simp; omega)]; rfl

theorem testBit_set_digit {k a : Nat} (hk : k.testBit a = false) (j : Nat) : (k + 2 ^ a).testBit j = if j = a then true else k.testBit j := by
  by_cases h : j = a
  · subst h; rw [if_pos rfl, Nat.add_comm, Nat.testBit_two_pow_add_eq, hk]; rfl
  · rw [if_neg h, Nat.add_comm, testBit_two_pow_add' hk]
    simp [h]

theorem lt_two_pow_of_testBit {k n : Nat} (h : ∀ j, n ≤ j → k.testBit j = false) : k < 2 ^ n :=
  Nat.lt_pow_two_of_testBit k h

theorem set_digit_lt {k a n : Nat} (hk : k.testBit a = false) (ha : a < n) (hkn : k < 2 ^ n) : k + 2 ^ a < 2 ^ n := by
  apply lt_two_pow_of_testBit
  intro j hj
  rw [testBit_set_digit hk, if_neg (by omega), testBit_of_lt hkn hj]

theorem atomPartition_spec {a n : Nat} (ha : a < n) :
    ∃ p, atomPartition a n = .ok p ∧ WF p ∧ ∀ x y, Eqv p.blocks x y ↔ x = y ∨ Differ n [a] x y := by
  have he : atomPartition a n = newPart (((List.range (2 ^ n)).filter fun k => !k.testBit a).map fun k : Nat => [(k : Int), ((k + 2 ^ a : Nat) : Int)]) := by
    unfold atomPartition
    rw [atompatternGen_negate.1 ha]
    simp only [bind, Except.bind, Nat.one_shiftLeft]
    rw [zipIdx_map_range, List.filter_map, List.map_map]
    rfl
  have hov : NoOverlap (((List.range (2 ^ n)).filter fun k => !k.testBit a).map fun k : Nat => [(k : Int), ((k + 2 ^ a : Nat) : Int)]) := by
    refine ⟨?_, ?_⟩
    · intro B hB _
      obtain ⟨k, _, rfl⟩ := List.mem_map.1 hB
      have := Nat.two_pow_pos a
      simp
    · apply List.Pairwise.filter
      rw [List.pairwise_map]
      refine List.Pairwise.imp_of_mem ?_ ((List.pairwise_lt_range (n := 2 ^ n)).filter _)
      intro i j hi hj hij x hx hy
      have hi' : i.testBit a = false := by simpa using (List.mem_filter.1 hi).2
      have hj' : j.testBit a = false := by simpa using (List.mem_filter.1 hj).2
      have e1 := testBit_set_digit hi' a
      have e2 := testBit_set_digit hj' a
      rw [if_pos rfl] at e1 e2
      simp only [List.mem_cons, List.not_mem_nil, or_false] at hx hy
      rcases hx with rfl | rfl <;> rcases hy with hy | hy
      · omega
      · have : i = j + 2 ^ a := by omega
        rw [this, e2] at hi'; cases hi'
      · have : j = i + 2 ^ a := by omega
        rw [this, e1] at hj'; cases hj'
      · omega
  obtain ⟨p, h1, h2, _, _, h5⟩ := (C37_construction (L := Unit) _ .N).1 hov
  refine ⟨p, by rw [he]; exact h1, h2, fun x y => ?_⟩
  by_cases hxy : x = y
  · exact ⟨fun _ => Or.inl hxy, fun _ => Or.inl hxy⟩
  have e : Eqv p.blocks x y ↔ Joined p.blocks x y := ⟨fun h => h.resolve_left hxy, Or.inr⟩
  rw [e, ← h2.pairInSameBlock, h5 x y hxy]
  constructor
  · rintro ⟨B, hB, hx, hy⟩
    obtain ⟨k, hk, rfl⟩ := List.mem_map.1 hB
    obtain ⟨k1, k2⟩ := List.mem_filter.1 hk
    have k1 := List.mem_range.1 k1
    have k2 : k.testBit a = false := by simpa using k2
    have k3 := set_digit_lt k2 ha k1
    right
    simp only [List.mem_cons, List.not_mem_nil, or_false] at hx hy
    have hd : Differ n [a] (k : Int) ((k + 2 ^ a : Nat) : Int) :=
      ⟨k, k + 2 ^ a, k1, k3, rfl, rfl, fun j hj => by rw [testBit_set_digit k2, if_neg (by simpa using hj)]⟩
    rcases hx with rfl | rfl <;> rcases hy with rfl | rfl
    · exact absurd rfl hxy
    · exact hd
    · exact hd.symm
    · exact absurd rfl hxy
  · rintro (h | h)
    · exact absurd h hxy
    have key : ∀ {x y : Int} {u v : Nat}, x = u → y = v → u < 2 ^ n → (∀ k, k ∉ [a] → u.testBit k = v.testBit k) → u.testBit a = false → v.testBit a = true →
        [x, y] ∈ (((List.range (2 ^ n)).filter fun k => !k.testBit a).map fun k : Nat => [(k : Int), ((k + 2 ^ a : Nat) : Int)]) := by
      intro x y u v hx hy hu hb h0 h1
      refine List.mem_map.2 ⟨u, List.mem_filter.2 ⟨List.mem_range.2 hu, by rw [h0]; rfl⟩, ?_⟩
      have : u + 2 ^ a = v := by
        apply Nat.eq_of_testBit_eq
        intro j
        rw [testBit_set_digit h0]
        by_cases hj : j = a
        · rw [if_pos hj, hj, h1]
        · rw [if_neg hj]; exact hb j (by simpa using hj)
      rw [this, hx, hy]
    obtain ⟨u, v, hu, hv, hx, hy, hb⟩ := h
    have hne : u.testBit a ≠ v.testBit a := by
      intro h
      apply hxy
      rw [hx, hy]
      congr 1
      apply Nat.eq_of_testBit_eq
      intro j
      by_cases hj : j = a
      · rw [hj, h]
      · exact hb j (by simpa using hj)
    cases h0 : u.testBit a with
    | false =>
      rw [h0] at hne
      exact ⟨_, key hx hy hu hb h0 (by cases h : v.testBit a <;> simp_all), by simp, by simp⟩
    | true =>
      rw [h0] at hne
      exact ⟨_, key hy hx hv (fun k hk => (hb k hk).symm) (by cases h : v.testBit a <;> simp_all) h0, by simp, by simp⟩

theorem sierpinskiPartitionLoop_spec {n : Nat} (atoms : List Nat) (ha : ∀ a ∈ atoms, a < n) (S : List Nat) (p : SetPart Unit) (hp : WF p)
    (he : ∀ x y, Eqv p.blocks x y ↔ x = y ∨ Differ n S x y) :
    ∃ q, sierpinskiPartitionLoop n atoms p = .ok q ∧ WF q ∧ ∀ x y, Eqv q.blocks x y ↔ x = y ∨ Differ n (atoms ++ S) x y := by
  induction atoms generalizing S p with
  | nil => exact ⟨p, rfl, hp, he⟩
  | cons a atoms ih =>
    obtain ⟨r, r1, r2, r3⟩ := atomPartition_spec (ha a (by simp))
    obtain ⟨j, j1, j2, _, _, j5⟩ := join_ok hp r2
    obtain ⟨q, q1, q2, q3⟩ := ih (fun x hx => ha x (by simp [hx])) (a :: S) j j2 (fun x y => by
      rw [j5]
      unfold Chain
      constructor
      · intro h
        induction h with
        | rel u v huv =>
          rcases huv with huv | huv
          · exact ((he u v).1 (Or.inr huv)).imp id fun h => h.mono fun k hk => by simp [hk]
          · exact ((r3 u v).1 (Or.inr huv)).imp id fun h => h.mono fun k hk => by simp only [List.mem_singleton] at hk; simp [hk]
        | refl u => exact Or.inl rfl
        | symm u v _ ih => exact ih.imp Eq.symm Differ.symm
        | trans u v w _ _ i1 i2 =>
          rcases i1 with rfl | h1
          · exact i2
          · rcases i2 with rfl | h2
            · exact Or.inr h1
            · exact Or.inr (h1.trans h2)
      · rintro (rfl | ⟨u, v, hu, hv, rfl, rfl, hb⟩)
        · exact .refl _
        · -- change the digit `a` first
          let w := valB ((List.range n).map fun k => if k = a then v.testBit k else u.testBit k)
          have hw : ∀ k, w.testBit k = if k = a then v.testBit k else u.testBit k := by
            intro k
            show (valB _).testBit k = _
            rw [testBit_valB_range]
            by_cases hk : k < n
            · simp [hk]
            · rw [testBit_of_lt hu (by omega), testBit_of_lt hv (by omega)]; simp [hk]
          have hwn : w < 2 ^ n := by
            apply lt_two_pow_of_testBit
            intro k hk
            rw [hw, testBit_of_lt hu hk, testBit_of_lt hv hk]; simp
          have h1 : Eqv r.blocks (u : Int) (w : Int) := (r3 _ _).2 (Or.inr ⟨u, w, hu, hwn, rfl, rfl, fun k hk => by rw [hw, if_neg (by simpa using hk)]⟩)
          have h2 : Eqv p.blocks (w : Int) (v : Int) := (he _ _).2 (Or.inr ⟨w, v, hwn, hv, rfl, rfl, fun k hk => by
            rw [hw]
            split
            · rfl
            · rename_i hka
              exact hb k (by simp [hka, hk])⟩)
          have c1 : Relation.EqvGen (fun u v => Joined p.blocks u v ∨ Joined r.blocks u v) (u : Int) w := by
            rcases h1 with h | h
            · rw [h]; exact .refl _
            · exact .rel _ _ (Or.inr h)
          have c2 : Relation.EqvGen (fun u v => Joined p.blocks u v ∨ Joined r.blocks u v) (w : Int) v := by
            rcases h2 with h | h
            · rw [h]; exact .refl _
            · exact .rel _ _ (Or.inl h)
          exact c1.trans _ _ _ c2)
    refine ⟨q, ?_, q2, fun x y => ?_⟩
    · unfold sierpinskiPartitionLoop
      rw [r1]
      simp only [bind, Except.bind]
      rw [j1]
      exact q1
    · rw [q3]
      have : ∀ k, k ∈ atoms ++ a :: S ↔ k ∈ a :: atoms ++ S := fun k => by simp only [List.mem_append, List.mem_cons]; tauto
      exact or_congr Iff.rfl ⟨fun h => h.mono fun k hk => (this k).1 hk, fun h => h.mono fun k hk => (this k).2 hk⟩

theorem newPart_nil : ∃ p : SetPart Unit, newPart [] = .ok p ∧ WF p ∧ p.blocks = [] := by
  exact ⟨_, rfl, wf_setTrivial .N {}, rfl⟩

theorem sierpinskiPartition_spec {L n : Nat} (hL : L < 2 ^ n) :
    ∃ q, sierpinskiPartition L n = .ok q ∧ WF q ∧ ∀ x y, Eqv q.blocks x y ↔ x = y ∨ Differ n (intToExposet L) x y := by
  obtain ⟨p, p1, p2, p3⟩ := newPart_nil
  obtain ⟨q, q1, q2, q3⟩ := sierpinskiPartitionLoop_spec (n := n) (intToExposet L) (fun a ha => by
    rw [exposet_range hL] at ha
    exact List.mem_range.1 (List.mem_filter.1 ha).1) [] p p2 (fun x y => by
      rw [p3]
      constructor
      · rintro (h | ⟨B, hB, _⟩)
        · exact Or.inl h
        · cases hB
      · rintro (h | ⟨u, v, _, _, rfl, rfl, h⟩)
        · exact Or.inl h
        · left; congr 1; exact Nat.eq_of_testBit_eq fun k => h k (by simp))
  refine ⟨q, ?_, q2, fun x y => by rw [q3, List.append_nil]⟩
  unfold sierpinskiPartition
  rw [p1]
  exact q1

/-! ## the blocks in their order -/

/-- the digits below `n` that `L` does not have, in ascending order -/
def freeAtoms (L n : Nat) : List Nat := (List.range n).filter fun k => !L.testBit k

/-- the number whose digits are the digits of `c` at the places `A` -/
def comp (A : List Nat) (c : Nat) : Nat := valB (A.map c.testBit)

theorem mem_freeAtoms {L n k : Nat} : k ∈ freeAtoms L n ↔ k < n ∧ L.testBit k = false := by
  unfold freeAtoms
  rw [List.mem_filter, List.mem_range]
  simp

theorem freeAtoms_asc (L n : Nat) : (freeAtoms L n).Pairwise (· < ·) := List.pairwise_lt_range.filter _

theorem comp_lt (A : List Nat) (c : Nat) : comp A c < 2 ^ A.length := by
  have := valB_lt (A.map c.testBit)
  rwa [List.length_map] at this

theorem testBit_comp {A : List Nat} {k x : Nat} (h : A[k]? = some x) (c : Nat) : (comp A c).testBit k = c.testBit x := by
  unfold comp
  rw [testBit_valB_map, h]
  rfl

theorem comp_eq_iff {A : List Nat} (c d : Nat) : comp A c = comp A d ↔ ∀ x ∈ A, c.testBit x = d.testBit x := by
  constructor
  · intro h x hx
    obtain ⟨k, hk⟩ := List.mem_iff_getElem?.1 hx
    rw [← testBit_comp hk, h, testBit_comp hk]
  · intro h
    unfold comp
    rw [List.map_congr_left h]

theorem comp_rowEntry {A : List Nat} (hA : A.Nodup) {j : Nat} (hj : j < 2 ^ A.length) : comp A (rowEntry A j) = j := by
  apply Nat.eq_of_testBit_eq
  intro k
  by_cases hk : k < A.length
  · rw [testBit_comp (List.getElem?_eq_getElem hk), rowEntry_testBit_iff hA (List.getElem?_eq_getElem hk)]
  · rw [testBit_of_lt (comp_lt _ _) (by omega), testBit_of_lt hj (by omega)]

theorem rowEntry_not_mem {A : List Nat} (hA : A.Nodup) {x : Nat} (hx : x ∉ A) (j : Nat) : (rowEntry A j).testBit x = false := by
  rw [Bool.eq_false_iff, ne_eq, testBit_rowEntry hA]
  rintro ⟨k', h, _⟩
  exact hx (List.mem_of_getElem? h)

theorem rowEntry_bound {A : List Nat} (hA : A.Nodup) {n : Nat} (h : ∀ x ∈ A, x < n) (j : Nat) : rowEntry A j < 2 ^ n := by
  apply lt_two_pow_of_testBit
  intro k hk
  exact rowEntry_not_mem hA (fun hm => by have := h k hm; omega) j

theorem le_of_sub {i j : Nat} (h : ∀ k, i.testBit k = true → j.testBit k = true) : i ≤ j := by
  have := (sub_iff_and i j).1 (sub_iff.2 h)
  rw [← this]
  exact Nat.and_le_right

theorem rowEntry_comp_le {A : List Nat} (hA : A.Nodup) (c : Nat) : rowEntry A (comp A c) ≤ c := by
  apply le_of_sub
  intro k hk
  obtain ⟨i, i1, i2⟩ := (testBit_rowEntry hA _ _).1 hk
  rwa [testBit_comp i1] at i2

/-- the numbers below `2 ^ n` with given digits at the places `A` -/
def freeBlock (n : Nat) (A : List Nat) (j : Nat) : List Int := ((List.range (2 ^ n)).filter fun c => comp A c = j).map Int.ofNat

theorem mem_blockOf {n : Nat} {A : List Nat} {j : Nat} {x : Int} : x ∈ freeBlock n A j ↔ ∃ c : Nat, c < 2 ^ n ∧ comp A c = j ∧ x = c := by
  unfold freeBlock
  simp only [List.mem_map, List.mem_filter, List.mem_range, decide_eq_true_eq]
  constructor
  · rintro ⟨c, ⟨h1, h2⟩, rfl⟩; exact ⟨c, h1, h2, rfl⟩
  · rintro ⟨c, h1, h2, rfl⟩; exact ⟨c, ⟨h1, h2⟩, rfl⟩

theorem blockOf_asc (n : Nat) (A : List Nat) (j : Nat) : (freeBlock n A j).Pairwise (· < ·) := by
  unfold freeBlock
  rw [List.pairwise_map]
  exact (List.pairwise_lt_range.filter _).imp fun h => Int.ofNat_lt.2 h

theorem blockOf_lt {n : Nat} {A : List Nat} (hA : A.Pairwise (· < ·)) (hn : ∀ x ∈ A, x < n) {i j : Nat} (hj : j < 2 ^ A.length) (hij : i < j) :
    freeBlock n A i < freeBlock n A j := by
  have hnd : A.Nodup := hA.imp (fun h => Nat.ne_of_lt h)
  have hm : ∀ j, j < 2 ^ A.length → ((rowEntry A j : Nat) : Int) ∈ freeBlock n A j := fun j hj =>
    mem_blockOf.2 ⟨_, rowEntry_bound hnd hn j, comp_rowEntry hnd hj, rfl⟩
  have head : ∀ j, j < 2 ^ A.length → ∃ t, freeBlock n A j = ((rowEntry A j : Nat) : Int) :: t := by
    intro j hj
    cases hb : freeBlock n A j with
    | nil => have := hm j hj; rw [hb] at this; cases this
    | cons h t =>
      refine ⟨t, ?_⟩
      have h1 : h ∈ freeBlock n A j := by rw [hb]; simp
      obtain ⟨c, _, c2, rfl⟩ := mem_blockOf.1 h1
      have h2 := rowEntry_comp_le hnd c
      rw [c2] at h2
      have h3 := hm j hj
      rw [hb] at h3
      rcases List.mem_cons.1 h3 with h3 | h3
      · rw [h3]
      · have := blockOf_asc n A j
        rw [hb, List.pairwise_cons] at this
        have := this.1 _ h3
        omega
  obtain ⟨t, ht⟩ := head i (by omega)
  obtain ⟨t', ht'⟩ := head j hj
  rw [ht, ht']
  exact List.cons_lt_cons_iff.2 (Or.inl (Int.ofNat_lt.2 (rowEntry_lt hA hj hij)))

theorem sierpinskiPartition_blocks {L n : Nat} (hL : L < 2 ^ n) (h0 : L ≠ 0) :
    ∃ q, sierpinskiPartition L n = .ok q ∧ WF q ∧ q.blocks = (List.range (2 ^ (freeAtoms L n).length)).map (freeBlock n (freeAtoms L n)) := by
  obtain ⟨q, q1, q2, q3⟩ := sierpinskiPartition_spec hL
  have hA := freeAtoms_asc L n
  have hnd : (freeAtoms L n).Nodup := hA.imp (fun h => Nat.ne_of_lt h)
  have hn : ∀ x ∈ freeAtoms L n, x < n := fun x hx => (mem_freeAtoms.1 hx).1
  refine ⟨q, q1, q2, q2.canon.ext ⟨?_, ?_, ?_, ?_⟩ ?_⟩
  · rw [List.pairwise_map]
    refine List.Pairwise.imp_of_mem ?_ List.pairwise_lt_range
    intro i j _ hj hij
    exact le_of_lt (blockOf_lt hA hn (List.mem_range.1 hj) hij)
  · intro B hB
    obtain ⟨j, _, rfl⟩ := List.mem_map.1 hB
    exact blockOf_asc _ _ _
  · intro B hB
    obtain ⟨j, hj, rfl⟩ := List.mem_map.1 hB
    have hj := List.mem_range.1 hj
    obtain ⟨a, ha⟩ : ∃ a, L.testBit a = true := by
      by_contra hc
      push Not at hc
      exact h0 (Nat.eq_of_testBit_eq fun k => by rw [Nat.zero_testBit]; simpa using hc k)
    have han : a < n := by
      by_contra hc
      rw [testBit_of_lt hL (by omega)] at ha; cases ha
    have hna : a ∉ freeAtoms L n := fun h => by rw [(mem_freeAtoms.1 h).2] at ha; cases ha
    have h1 : ((rowEntry (freeAtoms L n) j : Nat) : Int) ∈ freeBlock n (freeAtoms L n) j := mem_blockOf.2 ⟨_, rowEntry_bound hnd hn j, comp_rowEntry hnd hj, rfl⟩
    have hz := rowEntry_not_mem hnd hna j
    have h2 : ((rowEntry (freeAtoms L n) j + 2 ^ a : Nat) : Int) ∈ freeBlock n (freeAtoms L n) j := by
      refine mem_blockOf.2 ⟨_, set_digit_lt hz han (rowEntry_bound hnd hn j), ?_, rfl⟩
      rw [← comp_rowEntry hnd hj, comp_eq_iff]
      intro x hx
      rw [testBit_set_digit (by rw [comp_rowEntry hnd hj]; exact hz), if_neg (by rintro rfl; exact hna hx), comp_rowEntry hnd hj]
    by_contra hc
    have := Nat.two_pow_pos a
    match hb : freeBlock n (freeAtoms L n) j, hc with
    | [], _ => rw [hb] at h1; cases h1
    | [x], _ => rw [hb] at h1 h2; simp only [List.mem_singleton] at h1 h2; omega
    | x :: y :: l, hc => simp at hc
  · rw [List.nodup_flatten]
    refine ⟨?_, ?_⟩
    · intro B hB
      obtain ⟨j, _, rfl⟩ := List.mem_map.1 hB
      exact nodup_of_lt (blockOf_asc _ _ _)
    · rw [List.pairwise_map]
      refine List.pairwise_lt_range.imp ?_
      intro i j hij x hx hy
      obtain ⟨c, _, c2, rfl⟩ := mem_blockOf.1 hx
      obtain ⟨d, _, d2, hd⟩ := mem_blockOf.1 hy
      obtain rfl : c = d := by omega
      omega
  · intro x y hxy
    have e : Joined q.blocks x y ↔ Eqv q.blocks x y := ⟨Or.inr, fun h => h.resolve_left hxy⟩
    rw [e, q3]
    constructor
    · rintro (h | ⟨u, v, hu, hv, rfl, rfl, hb⟩)
      · exact absurd h hxy
      · refine ⟨freeBlock n (freeAtoms L n) (comp (freeAtoms L n) u), List.mem_map.2 ⟨_, List.mem_range.2 (comp_lt _ _), rfl⟩,
          mem_blockOf.2 ⟨u, hu, rfl, rfl⟩, mem_blockOf.2 ⟨v, hv, ?_, rfl⟩⟩
        rw [comp_eq_iff]
        intro x hx
        refine (hb x fun hm => ?_).symm
        rw [exposet_range hL] at hm
        simp [(mem_freeAtoms.1 hx).2] at hm
    · rintro ⟨B, hB, hx, hy⟩
      obtain ⟨j, _, rfl⟩ := List.mem_map.1 hB
      obtain ⟨c, c1, c2, rfl⟩ := mem_blockOf.1 hx
      obtain ⟨d, d1, d2, rfl⟩ := mem_blockOf.1 hy
      refine Or.inr ⟨c, d, c1, d1, rfl, rfl, fun k hk => ?_⟩
      by_cases hkn : k < n
      · refine (comp_eq_iff c d).1 (c2.trans d2.symm) k (mem_freeAtoms.2 ⟨hkn, ?_⟩)
        rw [exposet_range hL] at hk
        simpa [hkn] using hk
      · rw [testBit_of_lt c1 (by omega), testBit_of_lt d1 (by omega)]

/-! ## twins -/

theorem blockLoop_spec (val : Bool) (block : List Int) (big : List Bool) (hb : ∀ x ∈ block, x.toNat < big.length) :
    ∃ r, blockLoop val block big = .ok r ∧ r.length = big.length ∧ ∀ c : Nat, r[c]? = if c ∈ block.map Int.toNat then some val else big[c]? := by
  induction block generalizing big with
  | nil => exact ⟨big, rfl, rfl, fun c => by simp⟩
  | cons x block ih =>
    obtain ⟨r, r1, r2, r3⟩ := ih (big.set x.toNat val) (fun y hy => by rw [List.length_set]; exact hb y (by simp [hy]))
    refine ⟨r, ?_, by rw [r2, List.length_set], fun c => ?_⟩
    · unfold blockLoop setEntry
      rw [if_pos (hb x (by simp))]
      exact r1
    · rw [r3]
      by_cases h1 : c ∈ block.map Int.toNat
      · rw [if_pos h1, if_pos (by rw [List.map_cons]; exact List.mem_cons_of_mem _ h1)]
      · rw [if_neg h1, List.getElem?_set]
        by_cases h2 : x.toNat = c
        · rw [if_pos h2, if_pos (hb x (by simp)), if_pos (by rw [List.map_cons, h2]; simp)]
        · rw [if_neg h2, if_neg (by rw [List.map_cons, List.mem_cons]; rintro (h | h); exacts [h2 h.symm, h1 h])]

theorem twinLoop_spec {n : Nat} {A : List Nat} (s : Nat → Bool) (js : List Nat) (hjs : ∀ j ∈ js, j < 2 ^ A.length) (big : List Bool) (hb : big.length = 2 ^ n) :
    ∃ r, twinLoop ((List.range (2 ^ A.length)).map (freeBlock n A)) (js.map fun j => (s j, j)) big = .ok r ∧ r.length = 2 ^ n ∧
      ∀ c, c < 2 ^ n → r[c]? = if comp A c ∈ js then some (s (comp A c)) else big[c]? := by
  induction js generalizing big with
  | nil => exact ⟨big, rfl, hb, fun c _ => by simp⟩
  | cons j js ih =>
    obtain ⟨r, r1, r2, r3⟩ := blockLoop_spec (s j) (freeBlock n A j) big (fun x hx => by
      obtain ⟨c, c1, _, rfl⟩ := mem_blockOf.1 hx
      rw [hb]; simpa using c1)
    obtain ⟨r', q1, q2, q3⟩ := ih (fun x hx => hjs x (by simp [hx])) r (by rw [r2, hb])
    refine ⟨r', ?_, q2, fun c hc => ?_⟩
    · rw [List.map_cons]
      unfold twinLoop
      rw [List.getElem?_map, List.getElem?_range (hjs j (by simp))]
      simp only [Option.map_some, bind, Except.bind]
      rw [r1]
      exact q1
    · rw [q3 c hc, r3]
      have hm : c ∈ (freeBlock n A j).map Int.toNat ↔ comp A c = j := by
        rw [List.mem_map]
        constructor
        · rintro ⟨x, hx, rfl⟩
          obtain ⟨d, _, d2, rfl⟩ := mem_blockOf.1 hx
          simpa using d2
        · intro h
          exact ⟨(c : Int), mem_blockOf.2 ⟨c, hc, h, rfl⟩, by simp⟩
      by_cases h1 : comp A c ∈ js
      · rw [if_pos h1, if_pos (List.mem_cons_of_mem _ h1)]
      · rw [if_neg h1]
        by_cases h2 : comp A c = j
        · rw [if_pos (hm.2 h2), if_pos (by rw [h2]; simp), h2]
        · rw [if_neg (fun h => h2 (hm.1 h)), if_neg (by rw [List.mem_cons]; rintro (h | h); exacts [h2 h, h1 h])]

theorem weight_free {L n : Nat} (hL : L < 2 ^ n) : intToWeight L + (freeAtoms L n).length = n := by
  rw [weight_ones hL]
  unfold ones freeAtoms
  rw [← List.countP_eq_length_filter]
  have := List.length_eq_countP_add_countP (L.testBit) (l := List.range n)
  rw [List.length_range] at this
  conv_rhs => rw [this]
  congr 1
  apply List.countP_congr
  intro x _
  simp

theorem sierpinskiTwin_spec {L n : Nat} (hL : L < 2 ^ n) (small : List Bool) (hs : small.length = 2 ^ (freeAtoms L n).length) :
    sierpinskiTwin small L n = .ok ((List.range (2 ^ n)).map fun c => subXor (freeAtoms L n).length (fun i => small.getD i false) (comp (freeAtoms L n) c)) := by
  unfold sierpinskiTwin
  rw [hs, logInt_pow]
  simp only [bind, Except.bind, pure, Except.pure]
  rw [if_pos (weight_free hL), vectorToTwin_eq hs]
  simp only
  by_cases h0 : L = 0
  · rw [if_pos h0]
    subst h0
    have hf : freeAtoms 0 n = List.range n := by unfold freeAtoms; simp
    rw [hf, List.length_range]
    refine congrArg Except.ok (List.map_congr_left fun c hc => ?_)
    congr 1
    unfold comp
    rw [valB_digits (List.mem_range.1 hc)]
  · obtain ⟨q, q1, _, q3⟩ := sierpinskiPartition_blocks hL h0
    rw [if_neg h0, q1]
    simp only
    rw [if_pos (by rw [q3]; simp), q3, zipIdx_map_range]
    obtain ⟨r, r1, r2, r3⟩ := twinLoop_spec (n := n) (A := freeAtoms L n) (fun j => subXor (freeAtoms L n).length (fun i => small.getD i false) j)
      (List.range (2 ^ (freeAtoms L n).length)) (fun j hj => List.mem_range.1 hj) (List.replicate (1 <<< n) false) (by simp [Nat.one_shiftLeft])
    rw [r1]
    refine congrArg Except.ok ?_
    apply List.ext_getElem?
    intro c
    by_cases hc : c < 2 ^ n
    · rw [r3 c hc, if_pos (List.mem_range.2 (comp_lt _ _)), List.getElem?_map, List.getElem?_range hc]; rfl
    · rw [List.getElem?_eq_none (by omega), List.getElem?_eq_none (by simp; omega)]

theorem atomPartition_error {a n : Nat} (h : n ≤ a) : atomPartition a n = .error .assertion := by
  unfold atomPartition
  rw [atompatternGen_negate.2 h]
  rfl

theorem sierpinskiPartitionLoop_error {n : Nat} (atoms : List Nat) (h : ∃ a ∈ atoms, n ≤ a) (p : SetPart Unit) (hp : WF p) :
    sierpinskiPartitionLoop n atoms p = .error .assertion := by
  induction atoms generalizing p with
  | nil => obtain ⟨a, ha, _⟩ := h; cases ha
  | cons a atoms ih =>
    unfold sierpinskiPartitionLoop
    by_cases ha : n ≤ a
    · rw [atomPartition_error ha]; rfl
    · obtain ⟨r, r1, r2, _⟩ := atomPartition_spec (Nat.lt_of_not_le ha)
      obtain ⟨j, j1, j2, _⟩ := join_ok hp r2
      rw [r1]
      simp only [bind, Except.bind]
      rw [j1]
      refine ih ?_ j j2
      obtain ⟨b, hb, hb'⟩ := h
      rcases List.mem_cons.1 hb with rfl | hb
      · exact absurd hb' ha
      · exact ⟨b, hb, hb'⟩

/-- **C97.** `sierpinski_partition(n, arity)` raises `AssertionError` iff `n` has a digit beyond the arity.  Otherwise different elements are in the same block
iff they are numbers below `2 ** arity` whose binary digits are equal wherever `n` has the digit 0. -/
theorem C97_partition (n arity : Nat) :
    (n < 2 ^ arity → ∃ p, sierpinskiPartition n arity = .ok p ∧ WF p ∧ ∀ x y : Int, x ≠ y → (p.pairInSameBlock x y = true ↔
      ∃ a b : Nat, a < 2 ^ arity ∧ b < 2 ^ arity ∧ x = a ∧ y = b ∧ ∀ k, n.testBit k = false → a.testBit k = b.testBit k)) ∧
    (2 ^ arity ≤ n → sierpinskiPartition n arity = .error .assertion) := by
  constructor
  · intro hn
    obtain ⟨p, p1, p2, p3⟩ := sierpinskiPartition_spec hn
    refine ⟨p, p1, p2, fun x y hxy => ?_⟩
    rw [p2.pairInSameBlock]
    have e : Joined p.blocks x y ↔ Eqv p.blocks x y := ⟨Or.inr, fun h => h.resolve_left hxy⟩
    have hm : ∀ k, k ∉ intToExposet n ↔ n.testBit k = false := by
      intro k
      rw [exposet_range hn, List.mem_filter, List.mem_range]
      by_cases hk : k < arity
      · simp [hk]
      · simp [hk, testBit_of_lt hn (show arity ≤ k by omega)]
    rw [e, p3]
    unfold Differ
    simp only [hm]
    exact ⟨fun h => h.resolve_left hxy, Or.inr⟩
  · intro hn
    obtain ⟨p, p1, p2, _⟩ := newPart_nil
    unfold sierpinskiPartition
    rw [p1]
    refine sierpinskiPartitionLoop_error _ ?_ p p2
    obtain ⟨k, hk1, hk2⟩ := Nat.exists_ge_and_testBit_of_ge_two_pow hn
    refine ⟨k, ?_, hk1⟩
    rw [intToExposet_eq, Nat.mem_bitIndices]
    exact hk2

/-- **C97.** With `m` digits 0 in the index below the arity `n` and `2 ** m` values, `sierpinski_twin` gives `2 ** n` values: that at a place `c` is the entry
of the Zhegalkin twin of the values at the place `j` whose digits are those of `c` where the index has digit 0 (in their order), i.e. it tells if the number
of true values at places whose digits are among those of `j` is odd. -/
theorem C97_twin (small : List Bool) (index n m : Nat) (hi : index < 2 ^ n) (hm : ((List.range n).filter fun k => !index.testBit k).length = m) (hs : small.length = 2 ^ m) :
    ∃ big, sierpinskiTwin small index n = .ok big ∧ big.length = 2 ^ n ∧
      ∀ c j : Nat, c < 2 ^ n → j < 2 ^ m → (∀ i x, ((List.range n).filter fun k => !index.testBit k)[i]? = some x → j.testBit i = c.testBit x) →
        big[c]? = some (decide (OddMany (2 ^ m) fun i => small[i]? = some true ∧ i &&& j = i)) := by
  subst hm
  refine ⟨_, sierpinskiTwin_spec hi small hs, by simp, fun c j hc hj h => ?_⟩
  rw [List.getElem?_map, List.getElem?_range hc]
  simp only [Option.map_some]
  have : comp (freeAtoms index n) c = j := by
    apply Nat.eq_of_testBit_eq
    intro i
    by_cases hi : i < (freeAtoms index n).length
    · rw [testBit_comp (List.getElem?_eq_getElem hi)]
      exact (h i _ (List.getElem?_eq_getElem hi)).symm
    · rw [testBit_of_lt (comp_lt _ _) (by omega), testBit_of_lt hj (by unfold freeAtoms at hi; omega)]
  rw [this, subXor_odd]
  refine congrArg some (decide_eq_decide.2 (oddMany_congr fun i hi => and_congr ?_ Iff.rfl))
  have hi' : i < small.length := by rw [hs]; exact hi
  rw [List.getD_eq_getElem?_getD, List.getElem?_eq_getElem hi']
  simp

/-- Index 2 and arity 2: the blocks are {0, 2} and {1, 3}; the twin of 0, 1 is 0, 1, which gives 0, 1, 0, 1. -/
example : sierpinskiTwin [false, true] 2 2 = .ok [false, true, false, true] ∧
    (∃ p, sierpinskiPartition 2 2 = .ok p ∧ p.pairInSameBlock 1 3 = true ∧ p.pairInSameBlock 1 2 = false) := by
  exact ⟨by decide +kernel, _, rfl, by decide +kernel, by decide +kernel⟩

/-- **C97.** `sierpinski_twin` raises `ArgValueError`, if the number of values is not a power of two, and `AssertionError`, if it is not that of a function
with as many arguments as the index has digits 0 below the arity, or if the index has digits beyond the arity. -/
theorem C97_twin_errors (small : List Bool) (index n : Nat) :
    ((∀ m, small.length ≠ 2 ^ m) → sierpinskiTwin small index n = .error .argValue) ∧
    (∀ m, small.length = 2 ^ m → intToWeight index + m ≠ n → sierpinskiTwin small index n = .error .assertion) ∧
    (∀ m, small.length = 2 ^ m → 2 ^ n ≤ index → sierpinskiTwin small index n = .error .assertion) := by
  refine ⟨fun h => ?_, fun m hm h => ?_, fun m hm h => ?_⟩
  · unfold sierpinskiTwin logInt
    rw [if_neg (by rw [isPowerOfTwo_iff]; rintro ⟨n, hn⟩; exact h n hn)]
    rfl
  · unfold sierpinskiTwin
    rw [hm, logInt_pow]
    simp only [bind, Except.bind]
    rw [if_neg h]
  · unfold sierpinskiTwin
    rw [hm, logInt_pow]
    simp only [bind, Except.bind, pure, Except.pure]
    split
    · rw [vectorToTwin_eq hm]
      simp only
      rw [if_neg (by have := Nat.two_pow_pos n; omega), (C97_partition index n).2 h]
    · rfl

end Verif.BF
