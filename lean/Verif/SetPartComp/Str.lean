import Verif.SetPart.Str
import Verif.SetPartComp.Props

/-! # Strings of set partitions with complementary blocks; property C152 -/

namespace Verif.SPC
open Verif.Py Verif.SP
open Verif.A (intStr)

/-! ## Model -/

/-- `str` of a pair of integers -/
def pairStr (ab : Int × Int) : List Char := "(".toList ++ intStr ab.1 ++ ", ".toList ++ intStr ab.2 ++ ")".toList

/-- set_part_comp/__init__.py:72-81 (`__str__`, `__repr__`); `str` of a set shows the pairs in the order of iteration. -/
def SetPartComp.str (s : SetPartComp) : List Char :=
  if s.compPairs.length ≠ 0 then
    "SetPartComp(".toList ++ listStr (listStr intStr) s.equalPart.blocks ++ ", ".toList ++ bracesStr pairStr s.compPairs ++ ")".toList
  else "SetPartComp(".toList ++ listStr (listStr intStr) s.equalPart.blocks ++ ")".toList

/-! ## C152 -/

theorem pairStr_decodable : Decodable' pairStr where
  inj := by
    rintro ⟨a, b⟩ ⟨c, d⟩ r s hr hs h
    unfold pairStr at h
    simp only [List.append_assoc] at h
    have h := List.append_cancel_left h
    obtain ⟨rfl, h2⟩ := intStr_decodable.inj a c (", ".toList ++ (intStr b ++ (")".toList ++ r))) (", ".toList ++ (intStr d ++ (")".toList ++ s))) ⟨_, Or.inl rfl⟩
      ⟨_, Or.inl rfl⟩ h
    have h2 := List.append_cancel_left h2
    obtain ⟨rfl, h3⟩ := intStr_decodable.inj b d (")".toList ++ r) (")".toList ++ s) ⟨_, Or.inr (Or.inr rfl)⟩ ⟨_, Or.inr (Or.inr rfl)⟩ h2
    exact ⟨rfl, List.append_cancel_left h3⟩
  ne := by
    intro a s r h
    simp [pairStr] at h

theorem pairStr_noBraces : NoBraces pairStr := by
  intro a c hc
  unfold pairStr at hc
  simp only [List.mem_append] at hc
  rcases hc with (((hc | hc) | hc) | hc) | hc
  · have : c = '(' := by simpa using hc
    subst this; decide
  · exact intStr_noBraces _ _ hc
  · have : c = ',' ∨ c = ' ' := by simpa using hc
    rcases this with rfl | rfl <;> decide
  · exact intStr_noBraces _ _ hc
  · have : c = ')' := by simpa using hc
    subst this; decide

theorem comp_str_eq_iff (s t : SetPartComp) : s.str = t.str ↔ s.equalPart.blocks = t.equalPart.blocks ∧ s.compPairs = t.compPairs := by
  constructor
  · intro h
    unfold SetPartComp.str at h
    have inj := fun (b c : List (List Int)) (u v : List Char)
        (h : "SetPartComp(".toList ++ (listStr (listStr intStr) b ++ u) = "SetPartComp(".toList ++ (listStr (listStr intStr) c ++ v)) =>
      listStr_inj (listStr_decodable intStr_decodable) b c u v (List.append_cancel_left h)
    by_cases hs : s.compPairs.length ≠ 0 <;> by_cases ht : t.compPairs.length ≠ 0
    · rw [if_pos hs, if_pos ht] at h
      simp only [List.append_assoc] at h
      obtain ⟨h1, h2⟩ := inj _ _ _ _ h
      exact ⟨h1, (bracesStr_inj pairStr_decodable pairStr_noBraces _ _ _ _ (List.append_cancel_left h2)).1⟩
    · rw [if_pos hs, if_neg ht] at h
      simp only [List.append_assoc] at h
      obtain ⟨_, h2⟩ := inj _ _ _ _ h
      simp at h2
    · rw [if_neg hs, if_pos ht] at h
      simp only [List.append_assoc] at h
      obtain ⟨_, h2⟩ := inj _ _ _ _ h
      simp at h2
    · rw [if_neg hs, if_neg ht] at h
      simp only [List.append_assoc] at h
      obtain ⟨h1, _⟩ := inj _ _ _ _ h
      refine ⟨h1, ?_⟩
      rw [List.length_eq_zero_iff.1 (not_not.1 hs), List.length_eq_zero_iff.1 (not_not.1 ht)]
  · rintro ⟨h1, h2⟩
    unfold SetPartComp.str
    rw [h1, h2]

theorem comp_eq_iff {s t : SetPartComp} (hs : Inv s) (ht : Inv t) : s.eq t = .ok true ↔ s.equalPart.blocks = t.equalPart.blocks ∧ s.compPairs.Perm t.compPairs := by
  unfold SetPartComp.eq SetPart.eq
  rw [if_pos (by rw [hs.domain, ht.domain]; rfl)]
  by_cases hb : s.equalPart.blocks = t.equalPart.blocks
  · simp only [hb, decide_true, true_and, Except.ok.injEq, Bool.and_eq_true, List.all_eq_true, List.contains_iff_mem]
    rw [List.perm_ext_iff_of_nodup hs.nodup ht.nodup]
    constructor
    · rintro ⟨h1, h2⟩ x; exact ⟨h1 x, h2 x⟩
    · intro h; exact ⟨fun x => (h x).1, fun x => (h x).2⟩
  · simp [hb]

/-- **C152.** Objects with the same string are equal.  Strings of equal objects differ at most in the order in which the pairs of the set are listed. -/
theorem C152_comp_str (F G : Fact → Prop) (s t : SetPartComp) (hs : Reach F s) (ht : Reach G t) :
    (s.str = t.str → s.eq t = .ok true) ∧
    (s.eq t = .ok true ↔ ∃ l, l.Perm t.compPairs ∧ s.str = ({ t with compPairs := l } : SetPartComp).str) := by
  obtain ⟨is, _⟩ := reach_inv hs
  obtain ⟨it, _⟩ := reach_inv ht
  constructor
  · intro h
    rw [comp_str_eq_iff] at h
    rw [comp_eq_iff is it]
    exact ⟨h.1, h.2 ▸ List.Perm.refl _⟩
  · rw [comp_eq_iff is it]
    constructor
    · rintro ⟨h1, h2⟩
      exact ⟨s.compPairs, h2, (comp_str_eq_iff _ _).2 ⟨h1, rfl⟩⟩
    · rintro ⟨l, hl, h⟩
      obtain ⟨h1, h2⟩ := (comp_str_eq_iff _ _).1 h
      exact ⟨h1, h2 ▸ hl⟩

/-- **C152.** The blocks and pairs shown in the string are the arguments of a constructor call that makes an equal object, with the same string. -/
theorem C152_comp_arguments (F : Fact → Prop) (s : SetPartComp) (hs : Reach F s) :
    ∃ t, new (some s.equalPart.blocks) (if s.compPairs = [] then none else some s.compPairs) = .ok t ∧ t.eq s = .ok true ∧ t.str = s.str ∧
      (s.compPairs = [] → s.str = "SetPartComp(".toList ++ listStr (listStr intStr) s.equalPart.blocks ++ ")".toList) ∧
      (s.compPairs ≠ [] → s.str = "SetPartComp(".toList ++ listStr (listStr intStr) s.equalPart.blocks ++ ", {".toList ++
        ", ".toList.intercalate (s.compPairs.map pairStr) ++ "})".toList) := by
  obtain ⟨is, _⟩ := reach_inv hs
  have hcl := cleanBlocks_of_canon is.wf.canon
  obtain ⟨q, h1, wf, h3, h4, h5, _⟩ := init_ok (L := Unit) (raw := s.equalPart.blocks) (d := .Z) (l := []) (c := {}) (by
    rw [← flatten_cleanBlocks s.equalPart.blocks |>.nodup_iff, hcl]; exact is.wf.canon.nodup)
  have hb : q.blocks = s.equalPart.blocks := by rw [h3, hcl]
  have hrep : ∀ x, q.rep x = s.equalPart.rep x := by
    intro x
    apply rep_of_class is.wf wf
    intro y
    rw [hb]
  have hpairs : (pySet (s.compPairs.map fun ab => pair (minOf (q.elementToBlock ab.1)) (minOf (q.elementToBlock ab.2)))) = s.compPairs := by
    have : (s.compPairs.map fun ab => pair (minOf (q.elementToBlock ab.1)) (minOf (q.elementToBlock ab.2))) = s.compPairs := by
      conv_rhs => rw [← List.map_id s.compPairs]
      apply List.map_congr_left
      intro ab hab
      obtain ⟨r1, r2⟩ := is.reps ab hab
      have e1 : minOf (q.elementToBlock ab.1) = ab.1 := (representative_eq (s := ⟨q, []⟩) wf ab.1).trans ((hrep _).trans r1)
      have e2 : minOf (q.elementToBlock ab.2) = ab.2 := (representative_eq (s := ⟨q, []⟩) wf ab.2).trans ((hrep _).trans r2)
      rw [e1, e2]
      unfold pair
      rw [if_pos (le_of_lt (is.lt ab hab))]
      rfl
    rw [this]
    exact List.Nodup.dedup is.nodup
  have hany : (s.compPairs.any fun ab => q.pairInSameBlock ab.1 ab.2) = false := by
    rw [List.any_eq_false]
    intro ab hab h
    rw [wf.pairInSameBlock] at h
    obtain ⟨r1, r2⟩ := is.reps ab hab
    have := rep_congr wf (Or.inr h)
    rw [hrep, hrep, r1, r2] at this
    have := is.lt ab hab
    omega
  have hnew : new (some s.equalPart.blocks) (if s.compPairs = [] then none else some s.compPairs) = .ok { equalPart := q, compPairs := s.compPairs } := by
    unfold new
    have hget : ((if s.compPairs = [] then none else some s.compPairs).getD []) = s.compPairs := by
      split
      · rename_i h; rw [h]; rfl
      · rfl
    simp only [Option.isNone_some, Bool.false_and, Bool.false_eq_true, if_false, Option.getD_some, hget]
    rw [show newPart s.equalPart.blocks .Z = .ok q from h1]
    simp only [hpairs]
    rw [if_neg (by rw [hany]; decide)]
  refine ⟨_, hnew, ?_, (comp_str_eq_iff _ _).2 ⟨hb, rfl⟩, ?_, ?_⟩
  · unfold SetPartComp.eq SetPart.eq
    rw [if_pos (by rw [h4, is.domain]; rfl), hb]
    simp
  · intro h
    unfold SetPartComp.str
    rw [if_neg (by simp [h])]
  · intro h
    unfold SetPartComp.str bracesStr
    rw [if_pos (by simpa using h)]
    simp

example : (new (some [[4, 1], [2, 3, 7]]) (some [(7, 4), (-1, 5)])).map SetPartComp.str = .ok "SetPartComp([[1, 4], [2, 3, 7]], {(1, 2), (-1, 5)})".toList ∧
    (new none none).map SetPartComp.str = .ok "SetPartComp([])".toList := by decide +kernel

end Verif.SPC
