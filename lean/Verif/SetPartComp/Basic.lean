import Verif.SetPartComp.Model
import Verif.SetPart.Props4

/-! Helper lemmas about `SetPartComp`. -/

namespace Verif.SPC
open Verif.Py Verif.SP

/-! ### meaning -/

/-- A fact entered by `set_equal(a, b)` or `set_comp(a, b)`. -/
inductive Fact
  | eq (a b : Int)
  | comp (a b : Int)
deriving DecidableEq

/-- The truth values `v` of the elements agree with the fact. -/
def Fact.Holds (v : Int → Bool) : Fact → Prop
  | .eq a b => v a = v b
  | .comp a b => v a ≠ v b

/-- The truth values `v` agree with what is stored in the object. -/
def Sat (s : SetPartComp) (v : Int → Bool) : Prop :=
  (∀ x y, Eqv s.equalPart.blocks x y → v x = v y) ∧ ∀ ab ∈ s.compPairs, v ab.1 ≠ v ab.2

/-- What the changing methods preserve. -/
structure Inv (s : SetPartComp) : Prop where
  wf : WF s.equalPart
  domain : s.equalPart.domain = .Z
  labels : s.equalPart.blockLabels = []
  lt : ∀ ab ∈ s.compPairs, ab.1 < ab.2
  reps : ∀ ab ∈ s.compPairs, s.equalPart.rep ab.1 = ab.1 ∧ s.equalPart.rep ab.2 = ab.2
  unique : ∀ ab ∈ s.compPairs, ∀ cd ∈ s.compPairs,
    ab.1 = cd.1 ∨ ab.1 = cd.2 ∨ ab.2 = cd.1 ∨ ab.2 = cd.2 → ab = cd
  nodup : s.compPairs.Nodup

/-! ### pairs and representatives -/

theorem pair_comm (a b : Int) : pair a b = pair b a := by
  unfold pair
  split <;> split <;> first | rfl | (rw [Prod.mk.injEq]; omega)

theorem pair_cases (a b : Int) : pair a b = (a, b) ∨ pair a b = (b, a) := by
  unfold pair; split
  · exact Or.inl rfl
  · exact Or.inr rfl

theorem pair_of_lt {x y : Int} (h : x < y) : pair x y = (x, y) := by
  unfold pair; rw [if_pos (by omega)]

theorem pair_inj {a b c : Int} (h : pair a b = pair a c) : b = c := by
  rcases pair_cases a b with h1 | h1 <;> rcases pair_cases a c with h2 | h2 <;> rw [h1, h2, Prod.mk.injEq] at h <;> omega

theorem pair_ne (v : Int → Bool) (a b : Int) : v (pair a b).1 ≠ v (pair a b).2 ↔ v a ≠ v b := by
  rcases pair_cases a b with h | h <;> rw [h]
  exact ne_comm

theorem mem_pair {a b x : Int} : (x = (pair a b).1 ∨ x = (pair a b).2) ↔ x = a ∨ x = b := by
  rcases pair_cases a b with h | h <;> rw [h]
  exact or_comm

theorem representative_eq {s : SetPartComp} (h : WF s.equalPart) (a : Int) : s.representative a = s.equalPart.rep a := by
  unfold SetPartComp.representative minOf SetPart.rep
  exact foldl_min_head (h.elementToBlock_lt a)

theorem rep_min {p : SetPart Unit} (h : WF p) (x y : Int) (hxy : Eqv p.blocks x y) : p.rep x ≤ y := by
  have hy : y ∈ p.elementToBlock x := (h.mem_elementToBlock x y).2 (hxy.imp_left Eq.symm)
  have hl := h.elementToBlock_lt x
  unfold SetPart.rep
  cases hb : p.elementToBlock x with
  | nil => rw [hb] at hy; cases hy
  | cons z l =>
    rw [hb] at hy hl
    rw [List.headD_cons]
    rcases List.mem_cons.1 hy with h' | h'
    · exact le_of_eq h'.symm
    · exact le_of_lt ((List.pairwise_cons.1 hl).1 y h')

theorem eqv_of_rep {p : SetPart Unit} (h : WF p) {x y : Int} (hxy : p.rep x = p.rep y) : Eqv p.blocks x y := by
  have h1 := rep_eqv h x
  rw [hxy] at h1
  exact h1.trans h.canon (rep_eqv h y).symm

/-- Partitions that agree on the class of `x` have the same representative of `x`. -/
theorem rep_of_class {p q : SetPart Unit} (hp : WF p) (hq : WF q) {x : Int}
    (h : ∀ y, Eqv q.blocks x y ↔ Eqv p.blocks x y) : q.rep x = p.rep x := by
  have h1 := rep_min hp x _ ((h _).1 (rep_eqv hq x))
  have h2 := rep_min hq x _ ((h _).2 (rep_eqv hp x))
  omega

theorem areEqual_iff {s : SetPartComp} (h : WF s.equalPart) (a b : Int) :
    s.areEqual a b = true ↔ Joined s.equalPart.blocks a b := by
  rw [← h.pairInSameBlock]
  unfold SetPartComp.areEqual SetPart.pairInSameBlock SetPart.indexOrNone
  by_cases ha : s.equalPart.nonSingletons.contains a = true
  · by_cases hb : s.equalPart.nonSingletons.contains b = true
    · obtain ⟨A, hA, haA⟩ := h.mem_ns.1 (List.contains_iff_mem.1 ha)
      obtain ⟨B, hB, hbB⟩ := h.mem_ns.1 (List.contains_iff_mem.1 hb)
      obtain ⟨i, hi, _⟩ := h.get_of_mem hA haA
      obtain ⟨j, hj, _⟩ := h.get_of_mem hB hbB
      simp only [ha, hb, if_true, hi, hj]
      simp
    · rw [Bool.not_eq_true] at hb
      simp only [ha, hb, if_true, Bool.and_false, Bool.not_false, Bool.false_eq_true, if_false]
      cases s.equalPart.nonSingletonToBlockIndex.get? a <;> simp
  · rw [Bool.not_eq_true] at ha
    simp only [ha, Bool.false_and, Bool.not_false, Bool.false_eq_true, if_false, if_true]

theorem areComp_iff {s : SetPartComp} (h : WF s.equalPart) (a b : Int) :
    s.areComp a b = true ↔ pair (s.equalPart.rep a) (s.equalPart.rep b) ∈ s.compPairs := by
  unfold SetPartComp.areComp
  rw [List.contains_iff_mem, representative_eq h, representative_eq h]

/-- `get_comp` finds the other element of the pair. -/
theorem getComp_iff {s : SetPartComp} (h : Inv s) (a c : Int) :
    s.getComp a = some c ↔ pair (s.equalPart.rep a) c ∈ s.compPairs := by
  unfold SetPartComp.getComp
  have key : ∀ l : List (Int × Int), (∀ ab ∈ l, ab ∈ s.compPairs) →
      (getCompLoop s.equalPart a l = some c ↔ pair (s.equalPart.rep a) c ∈ l) := by
    intro l
    induction l with
    | nil => intro _; simp [getCompLoop]
    | cons xy l ih =>
      obtain ⟨x, y⟩ := xy
      intro hl
      have hxy := hl (x, y) (by simp)
      have hlt : x < y := h.lt _ hxy
      obtain ⟨hx, hy⟩ : s.equalPart.rep x = x ∧ s.equalPart.rep y = y := h.reps _ hxy
      have hmem : ∀ z, s.equalPart.rep z = z → ((s.equalPart.elementToBlock z).contains a = true ↔ s.equalPart.rep a = z) := by
        intro z hz
        rw [List.contains_iff_mem, h.wf.mem_elementToBlock]
        constructor
        · intro h'
          have : Eqv s.equalPart.blocks a z := h'.imp_right Canon.symm
          rw [rep_congr h.wf this, hz]
        · intro h'
          rw [← hz] at h'
          exact (eqv_of_rep h.wf h').imp_right Canon.symm
      rw [getCompLoop]
      have hrest : ∀ d, pair (s.equalPart.rep a) d ∈ s.compPairs → (s.equalPart.rep a = x ∨ s.equalPart.rep a = y) →
          pair (s.equalPart.rep a) d = (x, y) := by
        intro d hd hor
        apply h.unique _ hd _ hxy
        rcases pair_cases (s.equalPart.rep a) d with h' | h' <;> rw [h'] <;> simp only <;> rcases hor with h'' | h'' <;> simp [h'']
      by_cases h1 : s.equalPart.rep a = x
      · rw [if_pos ((hmem x hx).2 h1)]
        constructor
        · intro h'; cases h'; rw [h1, pair_of_lt hlt]; simp
        · intro h'
          have := hrest c (by
            rcases List.mem_cons.1 h' with h'' | h''
            · rw [h'']; exact hxy
            · exact hl _ (by simp [h''])) (Or.inl h1)
          rw [h1, ← pair_of_lt hlt] at this
          rw [pair_inj this]
      · rw [if_neg (by rw [hmem x hx]; exact h1)]
        by_cases h2 : s.equalPart.rep a = y
        · rw [if_pos ((hmem y hy).2 h2)]
          constructor
          · intro h'; cases h'; rw [h2, pair_comm, pair_of_lt hlt]; simp
          · intro h'
            have := hrest c (by
              rcases List.mem_cons.1 h' with h'' | h''
              · rw [h'']; exact hxy
              · exact hl _ (by simp [h''])) (Or.inr h2)
            rw [h2, ← pair_of_lt hlt, pair_comm x y] at this
            rw [pair_inj this]
        · rw [if_neg (by rw [hmem y hy]; exact h2), ih (fun ab hab => hl ab (by simp [hab])), List.mem_cons]
          constructor
          · exact Or.inr
          · rintro (h' | h')
            · rcases pair_cases (s.equalPart.rep a) c with h'' | h'' <;> rw [h'', Prod.mk.injEq] at h'
              · exact absurd h'.1 h1
              · exact absurd h'.2 h2
            · exact h'
  exact key s.compPairs (fun _ h => h)

/-! ### satisfying truth values -/

theorem Inv.ne {s : SetPartComp} (h : Inv s) {a b : Int} (hab : pair a b ∈ s.compPairs) : a ≠ b := by
  rintro rfl
  have := h.lt _ hab
  rcases pair_cases a a with h' | h' <;> rw [h'] at this <;> exact absurd this (lt_irrefl _)

/-- The partner in a pair is unique. -/
theorem Inv.partner {s : SetPartComp} (h : Inv s) {a b c : Int} (hb : pair a b ∈ s.compPairs) (hc : pair a c ∈ s.compPairs) :
    b = c := by
  have : pair a b = pair a c := by
    apply h.unique _ hb _ hc
    rcases pair_cases a b with h1 | h1 <;> rcases pair_cases a c with h2 | h2 <;> rw [h1, h2] <;> simp
  exact pair_inj this

open Classical in
/-- Representatives that are the greater element of a pair get `false`, all others `true`. -/
noncomputable def base (s : SetPartComp) (x : Int) : Bool :=
  if ∃ ab ∈ s.compPairs, ab.2 = s.equalPart.rep x then false else true

open Classical in
/-- The same, but flipped for `a` and what is equal or complementary to it. -/
noncomputable def flipped (s : SetPartComp) (a : Int) (x : Int) : Bool :=
  if s.equalPart.rep x = s.equalPart.rep a ∨ pair (s.equalPart.rep a) (s.equalPart.rep x) ∈ s.compPairs then ! base s x
  else base s x

theorem base_sat {s : SetPartComp} (h : Inv s) : Sat s (base s) := by
  constructor
  · intro x y hxy
    unfold base
    rw [rep_congr h.wf hxy]
  · rintro ⟨x, y⟩ hxy
    simp only
    obtain ⟨hx, hy⟩ : s.equalPart.rep x = x ∧ s.equalPart.rep y = y := h.reps _ hxy
    have h1 : base s y = false := by
      unfold base
      rw [if_pos ⟨(x, y), hxy, hy.symm⟩]
    have h2 : base s x = true := by
      unfold base
      rw [if_neg]
      rintro ⟨cd, hcd, e⟩
      rw [hx] at e
      have := h.unique _ hcd _ hxy (by simp [e])
      rw [this] at e
      have hlt : x < y := h.lt _ hxy
      simp only at e
      omega
    rw [h1, h2]; decide

theorem flipped_sat {s : SetPartComp} (h : Inv s) (a : Int) : Sat s (flipped s a) := by
  obtain ⟨b1, b2⟩ := base_sat h
  constructor
  · intro x y hxy
    unfold flipped
    rw [rep_congr h.wf hxy, b1 x y hxy]
  · rintro ⟨x, y⟩ hxy
    obtain ⟨hx, hy⟩ : s.equalPart.rep x = x ∧ s.equalPart.rep y = y := h.reps _ hxy
    have hlt : x < y := h.lt _ hxy
    have hp : pair x y ∈ s.compPairs := by rw [pair_of_lt hlt]; exact hxy
    have hb := b2 _ hxy
    simp only at hb ⊢
    have hiff : (x = s.equalPart.rep a ∨ pair (s.equalPart.rep a) x ∈ s.compPairs) ↔
        (y = s.equalPart.rep a ∨ pair (s.equalPart.rep a) y ∈ s.compPairs) := by
      constructor
      · rintro (h' | h')
        · right; rw [← h']; exact hp
        · left
          rw [pair_comm] at h'
          exact h.partner hp h'
      · rintro (h' | h')
        · right; rw [← h', pair_comm]; exact hp
        · left
          rw [pair_comm] at h' hp
          exact h.partner hp h'
    unfold flipped
    rw [hx, hy]
    by_cases hk : x = s.equalPart.rep a ∨ pair (s.equalPart.rep a) x ∈ s.compPairs
    · rw [if_pos hk, if_pos (hiff.1 hk)]
      simpa using hb
    · rw [if_neg hk, if_neg (fun h' => hk (hiff.2 h'))]
      exact hb

/-- Whether `a` and `b` are equal: in all satisfying truth values. -/
theorem eqv_iff_sat {s : SetPartComp} (h : Inv s) (a b : Int) :
    Eqv s.equalPart.blocks a b ↔ ∀ v, Sat s v → v a = v b := by
  constructor
  · intro hab v hv
    exact hv.1 a b hab
  · intro hall
    by_contra hne
    have hr : s.equalPart.rep b ≠ s.equalPart.rep a := fun h' => hne (eqv_of_rep h.wf h'.symm)
    have h1 := hall _ (base_sat h)
    by_cases hc : pair (s.equalPart.rep a) (s.equalPart.rep b) ∈ s.compPairs
    · have h2 := (base_sat h).2 _ hc
      rw [pair_ne, ← (base_sat h).1 _ _ (rep_eqv h.wf a), ← (base_sat h).1 _ _ (rep_eqv h.wf b)] at h2
      exact h2 h1
    · have h2 := hall _ (flipped_sat h a)
      unfold flipped at h2
      rw [if_pos (Or.inl rfl), if_neg (by push Not; exact ⟨hr, hc⟩), h1] at h2
      simp at h2

theorem comp_iff_sat {s : SetPartComp} (h : Inv s) (a b : Int) :
    pair (s.equalPart.rep a) (s.equalPart.rep b) ∈ s.compPairs ↔ ∀ v, Sat s v → v a ≠ v b := by
  constructor
  · intro hc v hv
    have h2 := hv.2 _ hc
    rwa [pair_ne, ← hv.1 _ _ (rep_eqv h.wf a), ← hv.1 _ _ (rep_eqv h.wf b)] at h2
  · intro hall
    by_contra hc
    have h1 := hall _ (base_sat h)
    by_cases he : Eqv s.equalPart.blocks a b
    · exact h1 ((base_sat h).1 _ _ he)
    · have hr : s.equalPart.rep b ≠ s.equalPart.rep a := fun h' => he (eqv_of_rep h.wf h'.symm)
      have h2 := hall _ (flipped_sat h a)
      unfold flipped at h2
      rw [if_pos (Or.inl rfl), if_neg (by push Not; exact ⟨hr, hc⟩)] at h2
      cases ha : base s a <;> cases hb : base s b <;> rw [ha, hb] at h1 h2 <;> simp at h1 h2

end Verif.SPC
