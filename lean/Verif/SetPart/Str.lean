import Verif.SetPart.Props4
import Verif.A.Logic2

/-! # Strings of set partitions; property C152, and the block of a labelled element (C44) -/

namespace Verif.SP
open Verif.Py
open Verif.A (intStr)

variable {L : Type}

/-! ## Model -/

/-- The entries separated by commas between two curly brackets: `str` of a set, or the same built by hand in set_part/__init__.py:92-94. -/
def bracesStr {α : Type} (e : α → List Char) (l : List α) : List Char := "{".toList ++ ", ".toList.intercalate (l.map e) ++ "}".toList

/-- set_part/__init__.py:86-97 (`__str__`, `__repr__`) -/
def SetPart.str (p : SetPart L) : List Char :=
  match p.domain with
  | .N => "SetPart(".toList ++ listStr (listStr intStr) p.blocks ++ ")".toList
  | .Z => "SetPart(".toList ++ listStr (listStr intStr) p.blocks ++ ", 'Z')".toList
  | .finite s => "SetPart(".toList ++ listStr (listStr intStr) p.blocks ++ ", ".toList ++ bracesStr intStr (sortZ (pySet s)) ++ ")".toList

/-! ## Reading strings of integers -/

theorem intStr_neg {n : Int} (h : n < 0) : intStr n = '-' :: natStr n.natAbs := by unfold intStr; rw [if_pos h]

theorem intStr_decodable : Decodable' intStr where
  inj := by
    intro a b r s hr hs h
    by_cases ha : a < 0 <;> by_cases hb : b < 0
    · rw [intStr_neg ha, intStr_neg hb] at h
      simp only [List.cons_append, List.cons.injEq, true_and] at h
      obtain ⟨h1, h2⟩ := natStr_decodable.inj _ _ _ _ hr hs h
      exact ⟨by omega, h2⟩
    · rw [intStr_neg ha, A.intStr_nonneg (by omega)] at h
      exact absurd h.symm (A.natStr_append_ne _ _ rfl _ _)
    · rw [intStr_neg hb, A.intStr_nonneg (by omega)] at h
      exact absurd h (A.natStr_append_ne _ _ rfl _ _)
    · rw [A.intStr_nonneg (by omega), A.intStr_nonneg (by omega)] at h
      obtain ⟨h1, h2⟩ := natStr_decodable.inj _ _ _ _ hr hs h
      exact ⟨by omega, h2⟩
  ne := by
    intro a s r h
    by_cases ha : a < 0
    · rw [intStr_neg ha] at h; simp at h
    · rw [A.intStr_nonneg (by omega)] at h
      exact A.natStr_append_ne _ _ rfl _ _ h

/-- A digit or a minus sign. -/
theorem mem_intStr {n : Int} {c : Char} (h : c ∈ intStr n) : c = '-' ∨ c.isDigit = true := by
  by_cases hn : n < 0
  · rw [intStr_neg hn, List.mem_cons] at h
    exact h.imp id fun h => natStr_digit h
  · rw [A.intStr_nonneg (by omega)] at h
    exact Or.inr (natStr_digit h)

/-- Square brackets in place of curly ones. -/
def square (c : Char) : Char := if c = '{' then '[' else if c = '}' then ']' else c

/-- The entries do not contain curly brackets. -/
def NoBraces {α : Type} (e : α → List Char) : Prop := ∀ a, ∀ c ∈ e a, c ≠ '{' ∧ c ≠ '}'

theorem map_square {α : Type} {e : α → List Char} (he : NoBraces e) (a : α) : (e a).map square = e a := by
  conv_rhs => rw [← List.map_id (e a)]
  apply List.map_congr_left
  intro c hc
  obtain ⟨h1, h2⟩ := he a c hc
  simp [square, h1, h2]

theorem map_intersperse (sep : List Char) (f : Char → Char) : ∀ l : List (List Char), (l.intersperse sep).map (List.map f) = (l.map (List.map f)).intersperse (sep.map f)
  | [] => rfl
  | [_] => rfl
  | x :: y :: l => by
    have := map_intersperse sep f (y :: l)
    simp only [List.map_cons, List.intersperse_cons_cons] at this ⊢
    rw [this]

theorem intercalate_flat (sep : List Char) (l : List (List Char)) (f : Char → Char) : (sep.intercalate l).map f = (sep.map f).intercalate (l.map (List.map f)) := by
  simp only [List.intercalate, List.map_flatten, map_intersperse]

theorem bracesStr_square {α : Type} {e : α → List Char} (he : NoBraces e) (l : List α) : (bracesStr e l).map square = listStr e l := by
  rw [← A.intercalate_listStr]
  unfold bracesStr
  rw [List.map_append, List.map_append, intercalate_flat, List.map_map]
  have : (List.map square ∘ e) = e := funext fun a => map_square he a
  rw [this]
  rfl

theorem bracesStr_inj {α : Type} {e : α → List Char} (hd : Decodable' e) (he : NoBraces e) (l l' : List α) (r s : List Char)
    (h : bracesStr e l ++ r = bracesStr e l' ++ s) : l = l' ∧ r = s := by
  have := congrArg (List.map square) h
  rw [List.map_append, List.map_append, bracesStr_square he, bracesStr_square he] at this
  obtain ⟨h1, _⟩ := listStr_inj hd _ _ _ _ this
  subst h1
  exact ⟨rfl, List.append_cancel_left h⟩

theorem intStr_noBraces : NoBraces intStr := by
  intro a c hc
  rcases mem_intStr hc with rfl | h
  · decide
  · constructor <;> rintro rfl <;> revert h <;> decide

/-! ## C152 -/

/-- `domain == other.domain` -/
theorem domain_eq_cases (d e : Domain) : d.eq e = true ↔ (d = .N ∧ e = .N) ∨ (d = .Z ∧ e = .Z) ∨
    ∃ s t, d = .finite s ∧ e = .finite t ∧ ∀ x, x ∈ s ↔ x ∈ t := by
  cases d <;> cases e <;> simp [Domain.eq]
  rename_i s t
  constructor
  · rintro ⟨h1, h2⟩ x; exact ⟨h1 x, h2 x⟩
  · intro h; exact ⟨fun x => (h x).1, fun x => (h x).2⟩

theorem sorted_set_eq {s t : List Int} : sortZ (pySet s) = sortZ (pySet t) ↔ ∀ x, x ∈ s ↔ x ∈ t := by
  constructor
  · intro h x
    rw [← mem_pySet (l := s), ← mem_pySet (l := t), ← mem_sortZ, h, mem_sortZ]
  · intro h
    exact eq_of_mem_iff (sortZ_lt (nodup_pySet _)) (sortZ_lt (nodup_pySet _)) fun x => by simp only [mem_sortZ, mem_pySet, h]

theorem blocksStr_inj (b c : List (List Int)) (r s : List Char) (h : "SetPart(".toList ++ listStr (listStr intStr) b ++ r = "SetPart(".toList ++ listStr (listStr intStr) c ++ s) :
    b = c ∧ r = s := by
  rw [List.append_assoc, List.append_assoc] at h
  exact listStr_inj (listStr_decodable intStr_decodable) _ _ _ _ (List.append_cancel_left h)

/-- Two set partitions have the same string exactly if they have the same domain and the same blocks. -/
theorem str_eq_iff (p q : SetPart L) : p.str = q.str ↔ p.domain.eq q.domain = true ∧ p.blocks = q.blocks := by
  rw [domain_eq_cases]
  unfold SetPart.str
  constructor
  · intro h
    cases hp : p.domain <;> cases hq : q.domain <;> rw [hp, hq] at h <;> simp only [List.append_assoc] at h <;>
      simp only [← List.append_assoc "SetPart(".toList] at h <;> obtain ⟨h1, h2⟩ := blocksStr_inj _ _ _ _ h
    · exact ⟨Or.inl ⟨rfl, rfl⟩, h1⟩
    · exact absurd h2 (by decide)
    · simp at h2
    · exact absurd h2 (by decide)
    · exact ⟨Or.inr (Or.inl ⟨rfl, rfl⟩), h1⟩
    · rename_i s
      simp [bracesStr] at h2
    · simp at h2
    · simp [bracesStr] at h2
    · rename_i s t
      obtain ⟨h3, _⟩ := bracesStr_inj intStr_decodable intStr_noBraces _ _ _ _ (List.append_cancel_left h2)
      exact ⟨Or.inr (Or.inr ⟨s, t, rfl, rfl, sorted_set_eq.1 h3⟩), h1⟩
  · rintro ⟨⟨h1, h2⟩ | ⟨h1, h2⟩ | ⟨s, t, h1, h2, h3⟩, hb⟩
    · rw [h1, h2, hb]
    · rw [h1, h2, hb]
    · rw [h1, h2, hb]
      simp only
      rw [sorted_set_eq.2 h3]

/-- **C152.** The string of a set partition shows domain and blocks.  Two partitions with the same domain have the same string exactly if they are equal, and that means
that they join the same elements.  Partitions with different domains have different strings. -/
theorem C152_str (p q : SetPart L) (hp : WF p) (hq : WF q) :
    (p.domain.eq q.domain = true → (p.str = q.str ↔ p.eq q = .ok true) ∧ (p.str = q.str ↔ ∀ a b, p.pairInSameBlock a b = q.pairInSameBlock a b)) ∧
    (p.domain.eq q.domain = false → p.str ≠ q.str) := by
  refine ⟨fun hd => ⟨?_, ?_⟩, fun hd h => ?_⟩
  · rw [str_eq_iff, hd]
    unfold SetPart.eq
    rw [if_pos hd]
    simp
  · rw [str_eq_iff, hd]
    simp only [true_and]
    constructor
    · intro hb a b
      rw [Bool.eq_iff_iff, hp.pairInSameBlock, hq.pairInSameBlock, hb]
    · intro h
      refine hp.canon.ext hq.canon fun a b _ => ?_
      rw [← hp.pairInSameBlock, ← hq.pairInSameBlock, h]
  · rw [str_eq_iff, hd] at h
    simp at h

/-- **C152.** The arguments shown in the string are those of a constructor call that makes an equal partition: the blocks, and the domain as a set. -/
theorem C152_arguments (p : SetPart L) (hp : WF p) :
    ∃ (d : Domain) (q : SetPart L), (∀ s, p.domain = .finite s → ∃ t, d = .finite t ∧ t.Pairwise (· < ·) ∧ (∀ x, x ∈ t ↔ x ∈ s) ∧
        p.str = "SetPart(".toList ++ listStr (listStr intStr) p.blocks ++ ", {".toList ++ ", ".toList.intercalate (t.map intStr) ++ "})".toList) ∧
      (p.domain = .N → d = .N ∧ p.str = "SetPart(".toList ++ listStr (listStr intStr) p.blocks ++ ")".toList) ∧
      (p.domain = .Z → d = .Z ∧ p.str = "SetPart(".toList ++ listStr (listStr intStr) p.blocks ++ ", 'Z')".toList) ∧
      newPart p.blocks d = .ok q ∧ p.eq q = .ok true ∧ q.str = p.str := by
  have build : ∀ d : Domain, p.domain.eq d = true → ∃ q : SetPart L, newPart p.blocks d = .ok q ∧ p.eq q = .ok true ∧ q.str = p.str := by
    intro d hd
    have hcl := cleanBlocks_of_canon hp.canon
    obtain ⟨q, h1, wf, h3, h4, _⟩ := init_ok (L := L) (raw := p.blocks) (d := d) (l := []) (c := {}) (by
      rw [← flatten_cleanBlocks p.blocks |>.nodup_iff, hcl]; exact hp.canon.nodup)
    have hb : q.blocks = p.blocks := by rw [h3, hcl]
    refine ⟨q, h1, ?_, ?_⟩
    · unfold SetPart.eq
      rw [h4, if_pos hd, hb]
      simp
    · exact ((str_eq_iff p q).2 ⟨by rw [h4]; exact hd, hb.symm⟩).symm
  cases hd : p.domain with
  | N =>
    obtain ⟨q, hq⟩ := build .N (by rw [hd]; rfl)
    refine ⟨.N, q, by simp, fun _ => ⟨rfl, ?_⟩, by simp, hq⟩
    unfold SetPart.str; rw [hd]
  | Z =>
    obtain ⟨q, hq⟩ := build .Z (by rw [hd]; rfl)
    refine ⟨.Z, q, by simp, by simp, fun _ => ⟨rfl, ?_⟩, hq⟩
    unfold SetPart.str; rw [hd]
  | finite s =>
    obtain ⟨q, hq⟩ := build (.finite (sortZ (pySet s))) (by
      rw [domain_eq_cases]
      exact Or.inr (Or.inr ⟨_, _, hd, rfl, fun x => by rw [mem_sortZ, mem_pySet]⟩))
    refine ⟨_, q, ?_, by simp, by simp, hq⟩
    intro s' hs
    cases hs
    refine ⟨_, rfl, sortZ_lt (nodup_pySet _), fun x => by rw [mem_sortZ, mem_pySet], ?_⟩
    unfold SetPart.str bracesStr
    rw [hd]
    simp

example : (newPart (L := Nat) [[4, -2], [7], [3, 1, 5]] (.finite [5, 4, 3, 1, -2, 7])).map SetPart.str = .ok "SetPart([[-2, 4], [1, 3, 5]], {-2, 1, 3, 4, 5, 7})".toList ∧
    (newPart (L := Nat) [[4, 2], [12, 1, 5]]).map SetPart.str = .ok "SetPart([[1, 5, 12], [2, 4]])".toList ∧
    (newPart (L := Nat) [] .Z).map SetPart.str = .ok "SetPart([], 'Z')".toList := by decide +kernel

/-! ## C44 -/

variable [DecidableEq L]

/-- **C44.** After any history of merges, refinements, reads and label additions (to existing blocks), `get_block_from_element` finds the current block of an element that
has a label, and nothing for one that has none. -/
theorem C44_block_from_element (p : SetPart L) (hp : WF p) (hl : p.blockLabels = []) (ops : List (Op L)) (hv : ValidLabels p ops) (x : Int) :
    (ops.foldl applyOp p).getBlockFromElement x =
      if (ops.foldl applyOp p).getLabelFromElement x = none then none else some ((ops.foldl applyOp p).elementToBlock x) := by
  obtain ⟨_, h2⟩ := C44_history p hp hl ops hv
  unfold SetPart.getBlockFromElement
  cases h : (ops.foldl applyOp p).getLabelFromElement x with
  | none => rfl
  | some label =>
    simp only [Option.bind_some, reduceCtorEq, if_false]
    exact (h2 label _).2 ⟨x, h, rfl⟩

example : (newPart (L := Nat) [[0, 1], [3, 4, 5]]).map (fun p =>
    let q := ([.labelElement 0 7, .mergePair 1 2] : List (Op Nat)).foldl applyOp p
    (q.getBlockFromElement 2, q.getBlockFromElement 4)) = .ok (some [0, 1, 2], none) := by decide

end Verif.SP
