import Verif.Boolf.Props24

/-!
# C86: combined splits
-/

namespace Verif.BF
open Verif.Py Verif.BV Verif.P Verif.W Verif.SP Verif.SPC
open Verif.A hiding Mat

/-- the invariant of the loop: two elements are in the same block iff both are full spots with equal digits at the places `l` -/
def Parts (F l : List Nat) (p : SetPart Unit) : Prop :=
  WF p ∧ p.domain = .N ∧ ∀ a b : Int, a ≠ b → (p.pairInSameBlock a b = true ↔ ∃ s ∈ F, ∃ t ∈ F, a = (s : Int) ∧ b = (t : Int) ∧ ∀ k ∈ l, s.testBit k = t.testBit k)

theorem split_part {F : List Nat} (hF : F.Pairwise (· < ·)) (k : Nat) :
    ∃ p, newPart [(splitOf F k).1.map Int.ofNat, (splitOf F k).2.map Int.ofNat] = .ok p ∧ Parts F [k] p := by
  have hnd : F.Nodup := hF.imp (fun h => Nat.ne_of_lt h)
  have hinj : Function.Injective Int.ofNat := fun a b h => by simpa using h
  have hno : NoOverlap [(splitOf F k).1.map Int.ofNat, (splitOf F k).2.map Int.ofNat] := by
    constructor
    · intro B hB _
      simp only [List.mem_cons, List.not_mem_nil, or_false] at hB
      rcases hB with rfl | rfl
      · exact (hnd.filter _).map hinj
      · exact (hnd.filter _).map hinj
    · apply List.Pairwise.filter
      rw [List.pairwise_pair]
      intro x h1 h2
      rw [List.mem_map] at h1 h2
      obtain ⟨s, hs, rfl⟩ := h1
      obtain ⟨t, ht, he⟩ := h2
      have := hinj he
      subst this
      simp only [splitOf, List.mem_filter] at hs ht
      rw [hs.2] at ht
      exact absurd ht.2 (by simp)
  obtain ⟨p, p1, p2, p3, _, p5⟩ := (C37_construction (L := Unit) [(splitOf F k).1.map Int.ofNat, (splitOf F k).2.map Int.ofNat] .N).1 hno
  refine ⟨p, p1, p2, p3, fun a b hab => ?_⟩
  rw [p5 a b hab]
  simp only [List.mem_cons, List.not_mem_nil, or_false, exists_eq_or_imp, exists_eq_left, List.mem_map, splitOf, List.mem_filter, forall_eq]
  constructor
  · rintro (⟨⟨s, hs, rfl⟩, ⟨t, ht, rfl⟩⟩ | ⟨⟨s, hs, rfl⟩, ⟨t, ht, rfl⟩⟩)
    · exact ⟨s, hs.1, t, ht.1, rfl, rfl, by rw [hs.2, ht.2]⟩
    · exact ⟨s, hs.1, t, ht.1, rfl, rfl, by have := hs.2; have := ht.2; simp_all⟩
  · rintro ⟨s, hs, t, ht, rfl, rfl, he⟩
    cases hb : s.testBit k
    · exact Or.inr ⟨⟨s, ⟨hs, by rw [hb]; rfl⟩, rfl⟩, ⟨t, ⟨ht, by rw [← he, hb]; rfl⟩, rfl⟩⟩
    · exact Or.inl ⟨⟨s, ⟨hs, hb⟩, rfl⟩, ⟨t, ⟨ht, by rw [← he, hb]⟩, rfl⟩⟩

theorem combineLoop_spec {F : List Nat} (hF : F.Pairwise (· < ·)) {n : Nat} (rest : List Nat) (hr : ∀ k ∈ rest, k < n) (l : List Nat) (p : SetPart Unit) (hp : Parts F l p) :
    ∃ q, combineLoop ((List.range n).map (splitOf F)) rest p = .ok q ∧ Parts F (l ++ rest) q := by
  induction rest generalizing l p with
  | nil => exact ⟨p, rfl, by simpa using hp⟩
  | cons k rest ih =>
    obtain ⟨t, t1, t2, t3, t4⟩ := split_part hF k
    obtain ⟨p2, p3, p4⟩ := hp
    obtain ⟨q, q1, q2, q3, q4⟩ := (C39_meet p t p2 t2).1 (by rw [p3, t3]; simp [SameDomain])
    obtain ⟨r, r1, r2⟩ := ih (fun x hx => hr x (by simp [hx])) (l ++ [k]) q ⟨q2, by rw [q3, p3], fun a b hab => by
      rw [q4 a b hab, p4 a b hab, t4 a b hab]
      constructor
      · rintro ⟨⟨s, hs, t, ht, rfl, rfl, h1⟩, ⟨s', _, t', _, e1, e2, h2⟩⟩
        have e1 : s = s' := by simpa using e1
        have e2 : t = t' := by simpa using e2
        subst e1; subst e2
        refine ⟨s, hs, t, ht, rfl, rfl, fun x hx => ?_⟩
        rw [List.mem_append] at hx
        exact hx.elim (h1 x) (h2 x)
      · rintro ⟨s, hs, t, ht, rfl, rfl, h1⟩
        exact ⟨⟨s, hs, t, ht, rfl, rfl, fun x hx => h1 x (by simp [hx])⟩, ⟨s, hs, t, ht, rfl, rfl, fun x hx => h1 x (by simp at hx; simp [hx])⟩⟩⟩
    refine ⟨r, ?_, by simpa using r2⟩
    unfold combineLoop
    rw [item_splits F (hr k (by simp))]
    simp only [bind, Except.bind]
    rw [t1]
    simp only
    rw [q1]
    exact r1

theorem combineLoop_error {F : List Nat} (hF : F.Pairwise (· < ·)) {n : Nat} (rest : List Nat) (hr : ∃ k ∈ rest, n ≤ k) (l : List Nat) (p : SetPart Unit) (hp : Parts F l p) :
    combineLoop ((List.range n).map (splitOf F)) rest p = .error .indexError := by
  induction rest generalizing l p with
  | nil => obtain ⟨k, hk, _⟩ := hr; cases hk
  | cons k rest ih =>
    by_cases hk : k < n
    · obtain ⟨q, q1, q2⟩ := combineLoop_spec hF [k] (n := n) (by simpa using hk) l p hp
      unfold combineLoop at q1 ⊢
      rw [item_splits F hk] at q1 ⊢
      simp only [bind, Except.bind] at q1 ⊢
      obtain ⟨t, t1, _⟩ := split_part hF k
      rw [t1] at q1 ⊢
      simp only at q1 ⊢
      cases hm : p.meet t with
      | error e => rw [hm] at q1; cases q1
      | ok m =>
        rw [hm] at q1
        simp only at q1 ⊢
        unfold combineLoop at q1
        cases q1
        refine ih ?_ _ _ q2
        obtain ⟨x, hx, hxn⟩ := hr
        rw [List.mem_cons] at hx
        rcases hx with rfl | hx
        · omega
        · exact ⟨x, hx, hxn⟩
    · unfold combineLoop
      have : item ((List.range n).map (splitOf F)) k = .error .indexError := by
        unfold item
        rw [List.getElem?_eq_none (by simp; omega)]
      rw [this]
      rfl

/-- **C86.** `splits_combined` for atomkeys of the function: the blocks, in ascending order, are the classes of the full spots
with the same digits at all those places; each block is ascending. -/
theorem C86_splits_combined (f : Boolf) (hf : Obj f) (atomkeys : List Nat) (h0 : atomkeys ≠ []) (hk : ∀ k ∈ atomkeys, k < f.valency) :
    ∃ r, f.splitsCombined atomkeys = .ok r ∧ r.Pairwise (· < ·) ∧
      ∀ C, C ∈ r ↔ ∃ s ∈ f.fullspots, C = (f.fullspots.filter fun t => atomkeys.all fun k => s.testBit k == t.testBit k).map Int.ofNat := by
  have h := hf.good
  have hF := fullspots_asc f
  cases atomkeys with
  | nil => exact absurd rfl h0
  | cons k rest =>
    obtain ⟨t, t1, t2⟩ := split_part hF k
    obtain ⟨q, q1, q2, q3, q4⟩ := combineLoop_spec hF (n := f.valency) rest (fun x hx => hk x (by simp [hx])) [k] t t2
    have hsub : ∀ x ∈ q.nonSingletons, x ∈ f.fullspots.map Int.ofNat := by
      intro x hx
      obtain ⟨y, hxy, hj⟩ := mem_joined q2 hx
      rw [← q2.pairInSameBlock] at hj
      obtain ⟨s, hs, _, _, rfl, _⟩ := (q4 x y hxy.symm).1 hj
      exact List.mem_map.2 ⟨s, hs, rfl⟩
    obtain ⟨r, r1, r2, r3⟩ := (C58_elements q q2 _).1 hsub
    refine ⟨r, ?_, r2, fun C => ?_⟩
    · unfold Boolf.splitsCombined
      rw [splits_eq h.toSound]
      simp only [bind, Except.bind]
      rw [item_splits _ (hk k (by simp))]
      simp only
      rw [t1]
      simp only
      rw [q1]
      exact r1
    · rw [r3]
      have hcls : ∀ s ∈ f.fullspots, q.elementToBlock (s : Int) = (f.fullspots.filter fun t => (k :: rest).all fun k => s.testBit k == t.testBit k).map Int.ofNat := by
        intro s hs
        obtain ⟨b1, b2⟩ := C37_element_to_block q q2 (s : Int)
        refine int_asc_ext b1 ?_ fun x => ?_
        · rw [List.pairwise_map]
          exact (hF.filter _).imp fun h => by simpa using h
        · rw [b2, List.mem_map]
          simp only [List.mem_filter, List.all_eq_true, beq_iff_eq]
          constructor
          · rintro (rfl | hx)
            · exact ⟨s, ⟨hs, fun _ _ => rfl⟩, rfl⟩
            · by_cases hsx : (s : Int) = x
              · subst hsx; exact ⟨s, ⟨hs, fun _ _ => rfl⟩, rfl⟩
              · obtain ⟨s', _, t, ht, e1, rfl, h2⟩ := (q4 _ _ hsx).1 hx
                have : s = s' := by simpa using e1
                subst this
                exact ⟨t, ⟨ht, h2⟩, rfl⟩
          · rintro ⟨t, ⟨ht, h2⟩, rfl⟩
            by_cases hst : s = t
            · left; rw [hst]; rfl
            · right
              exact (q4 _ _ (by simpa using hst)).2 ⟨s, hs, t, ht, rfl, rfl, h2⟩
      constructor
      · rintro ⟨e, he, rfl⟩
        obtain ⟨s, hs, rfl⟩ := List.mem_map.1 he
        exact ⟨s, hs, hcls s hs⟩
      · rintro ⟨s, hs, rfl⟩
        exact ⟨_, List.mem_map.2 ⟨s, hs, rfl⟩, (hcls s hs).symm⟩

/-- **C86.** Without atomkeys the result is `[]` (and not the one class of all full spots); an atomkey beyond the atoms raises `IndexError`. -/
theorem C86_exceptions (f : Boolf) (hf : Obj f) : f.splitsCombined [] = .ok [] ∧
    ∀ atomkeys : List Nat, (∃ k ∈ atomkeys, f.valency ≤ k) → f.splitsCombined atomkeys = .error .indexError := by
  refine ⟨rfl, fun atomkeys hk => ?_⟩
  have hF := fullspots_asc f
  cases atomkeys with
  | nil => obtain ⟨k, hk, _⟩ := hk; cases hk
  | cons k rest =>
    unfold Boolf.splitsCombined
    rw [splits_eq hf.good.toSound]
    simp only [bind, Except.bind]
    by_cases hkv : k < f.valency
    · rw [item_splits _ hkv]
      obtain ⟨t, t1, t2⟩ := split_part hF k
      simp only
      rw [t1]
      simp only
      rw [combineLoop_error hF rest (by
        obtain ⟨x, hx, hxn⟩ := hk
        rw [List.mem_cons] at hx
        rcases hx with rfl | hx
        · omega
        · exact ⟨x, hx, hxn⟩) [k] t t2]
    · have : item ((List.range f.valency).map (splitOf f.fullspots)) k = .error .indexError := by
        unfold item
        rw [List.getElem?_eq_none (by simp; omega)]
      rw [this]

/-- true at 4, 7 and 12: the places 0 and 3 separate all full spots, the places 0 and 1 separate 7 from the others -/
example : ∃ f, newTT (.str ['0', '0', '0', '0', '1', '0', '0', '1', '0', '0', '0', '0', '1', '0', '0', '0']) = .ok f ∧ Reach f ∧ f.valency = 4 ∧
    f.splitsCombined [0, 3] = .ok [[4], [7], [12]] ∧ f.splitsCombined [0, 1] = .ok [[4, 12], [7]] ∧ f.splitsCombined [2] = .ok [[4, 7, 12]] := by
  obtain ⟨_, e1, e2⟩ := newTT_explicit ['0', '0', '0', '0', '1', '0', '0', '1', '0', '0', '0', '0', '1', '0', '0', '0']
    [false, false, false, false, true, false, false, true, false, false, false, false, true, false, false, false] [0, 1, 2, 3] 4
    (by decide) (by decide) (by decide) (by intro n; simp; omega) (by decide) (by decide)
  exact ⟨_, e1 (by decide), e2.reach, rfl, by decide +kernel, by decide +kernel, by decide +kernel⟩

end Verif.BF
