import Verif.Boolf.Model21
import Verif.Boolf.Props12
import Verif.Boolf.Props31

/-!
# C140 (comparison of layered tables), C141 (swans)
-/

namespace Verif.BF
open Verif.Py Verif.BV Verif.P Verif.W
open Verif.A hiding Mat

/-! ## C140 -/

/-- The sum of all entries is greater; or it is equal, and the list of the sums of the layers is lexicographically greater; or these are equal, and the list of
the layers is lexicographically greater. -/
def LayeredGreater (a b : List (List Int)) : Prop :=
  b.flatten.sum < a.flatten.sum ∨ b.flatten.sum = a.flatten.sum ∧ (b.map List.sum < a.map List.sum ∨ b.map List.sum = a.map List.sum ∧ b < a)

theorem mkRow_lt {α β γ : Type} [LinearOrder α] [LinearOrder β] [LinearOrder γ] {a a' : α} {b b' : β} {c c' : γ} :
    mkRow a b c < mkRow a' b' c' ↔ a < a' ∨ a = a' ∧ (b < b' ∨ b = b' ∧ c < c') := by
  unfold mkRow
  rw [Prod.Lex.toLex_lt_toLex]
  simp only
  rw [Prod.Lex.toLex_lt_toLex]

theorem mkRow_inj {α β γ : Type} {a a' : α} {b b' : β} {c c' : γ} : mkRow a b c = mkRow a' b' c' ↔ a = a' ∧ b = b' ∧ c = c' := by
  unfold mkRow
  rw [toLex_inj, Prod.mk.injEq, toLex_inj, Prod.mk.injEq]

theorem third_mkRow {α β γ : Type} (a : α) (b : β) (c : γ) : (mkRow a b c).third = c := rfl

theorem sum_flatten (a : List (List Int)) : a.flatten.sum = (a.map List.sum).sum := List.sum_flatten

theorem greater_iff (a b : List (List Int)) : LayeredGreater a b ↔ mkRow (b.map List.sum).sum (b.map List.sum) b < mkRow (a.map List.sum).sum (a.map List.sum) a := by
  rw [mkRow_lt, ← sum_flatten, ← sum_flatten]
  rfl

/-- **C140.** `layered_is_greater` always gives an answer, namely whether the first argument is greater in the order described above. -/
theorem C140_greater (a b : List (List Int)) : ∃ x, layeredIsGreater a b = .ok x ∧ (x = true ↔ LayeredGreater a b) := by
  unfold layeredIsGreater
  by_cases h : a = b
  · refine ⟨false, if_pos h, ?_⟩
    rw [greater_iff, h]
    simp
  · rw [if_neg h, greater_iff]
    simp only
    generalize hra : mkRow (a.map List.sum).sum (a.map List.sum) a = ra
    generalize hrb : mkRow (b.map List.sum).sum (b.map List.sum) b = rb
    have hab : ra.third = a := by rw [← hra]; rfl
    have hbb : rb.third = b := by rw [← hrb]; rfl
    by_cases hle : ra ≤ rb
    · have : [ra, rb].insertionSort (· ≤ ·) = [ra, rb] := by simp [hle]
      rw [this]
      refine ⟨_, rfl, ?_⟩
      rw [hbb, decide_eq_true_eq]
      exact ⟨fun e => absurd e.symm h, fun hlt => absurd hlt (not_lt.2 hle)⟩
    · have : [ra, rb].insertionSort (· ≤ ·) = [rb, ra] := by simp [hle]
      rw [this]
      refine ⟨_, rfl, ?_⟩
      rw [hab, decide_eq_true_eq]
      exact ⟨fun _ => not_le.1 hle, fun _ => rfl⟩

/-- **C140.** It is a strict total order: exactly one of "a is greater", "b is greater", "they are equal" is the case, and being greater is transitive. -/
theorem C140_total (a b c : List (List Int)) :
    (layeredIsGreater a b = .ok true ∧ layeredIsGreater b a = .ok false ∧ a ≠ b ∨ layeredIsGreater a b = .ok false ∧ layeredIsGreater b a = .ok true ∧ a ≠ b ∨
      layeredIsGreater a b = .ok false ∧ layeredIsGreater b a = .ok false ∧ a = b) ∧
    (layeredIsGreater a b = .ok true → layeredIsGreater b c = .ok true → layeredIsGreater a c = .ok true) := by
  have key : ∀ a b, (layeredIsGreater a b = .ok true ↔ LayeredGreater a b) ∧ (layeredIsGreater a b = .ok false ↔ ¬ LayeredGreater a b) := by
    intro a b
    obtain ⟨x, h1, h2⟩ := C140_greater a b
    rw [h1, ← h2]
    cases x <;> simp
  simp only [(key _ _).1, (key _ _).2, greater_iff]
  constructor
  · rcases lt_trichotomy (mkRow (b.map List.sum).sum (b.map List.sum) b) (mkRow (a.map List.sum).sum (a.map List.sum) a) with h | h | h
    · exact Or.inl ⟨h, not_lt.2 h.le, fun e => by rw [e] at h; exact lt_irrefl _ h⟩
    · exact Or.inr (Or.inr ⟨by rw [h]; exact lt_irrefl _, by rw [h]; exact lt_irrefl _, (mkRow_inj.1 h).2.2.symm⟩)
    · exact Or.inr (Or.inl ⟨not_lt.2 h.le, h, fun e => by rw [e] at h; exact lt_irrefl _ h⟩)
  · exact fun h1 h2 => h2.trans h1

theorem sorted_le : ∀ (s l : List Int), s.Perm l → s.Pairwise (· ≤ ·) → s ≤ l
  | [], l, h, _ => by rw [List.nil_perm.1 h]
  | y :: s, [], h, _ => absurd h.length_eq (by simp)
  | y :: s, x :: l, h, hs => by
    have hyx : y ≤ x := by
      rcases List.mem_cons.1 (h.symm.mem_iff.1 (List.mem_cons_self (a := x) (l := l))) with e | hx
      · exact e.ge
      · exact List.rel_of_pairwise_cons hs hx
    rcases hyx.lt_or_eq with hlt | rfl
    · exact le_of_lt (List.Lex.rel hlt)
    · have := sorted_le s l (List.perm_cons y |>.1 h) (List.pairwise_cons.1 hs).2
      rcases this.lt_or_eq with h1 | h1
      · exact le_of_lt (List.Lex.cons h1)
      · rw [h1]

theorem map_le {g : List Int → List Int} (hg : ∀ l, g l ≤ l) : ∀ l : List (List Int), l.map g ≤ l
  | [] => le_rfl
  | x :: l => by
    rw [List.map_cons]
    rcases (hg x).lt_or_eq with h | h
    · exact le_of_lt (List.Lex.rel h)
    · rw [h]
      rcases (map_le hg l).lt_or_eq with h1 | h1
      · exact le_of_lt (List.Lex.cons h1)
      · rw [h1]

/-- **C140.** `sort_each_layer` sorts every layer, and the result is not greater than any other list of rearrangements of the layers. -/
theorem C140_sort_each_layer (a : List (List Int)) :
    (sortEachLayer a).length = a.length ∧ (∀ (w : Nat) (x : List Int), a[w]? = some x → ∃ y, (sortEachLayer a)[w]? = some y ∧ y.Perm x ∧ y.Pairwise (· ≤ ·)) ∧
    ∀ b, List.Forall₂ List.Perm a b → layeredIsGreater (sortEachLayer a) b = .ok false := by
  refine ⟨by simp [sortEachLayer], fun w x hx => ⟨x.insertionSort (· ≤ ·), by simp [sortEachLayer, hx], List.perm_insertionSort _ _, List.pairwise_insertionSort _ _⟩, fun b hb => ?_⟩
  have hsame : sortEachLayer a = sortEachLayer b := by
    unfold sortEachLayer
    induction hb with
    | nil => rfl
    | cons h _ ih =>
      rw [List.map_cons, List.map_cons, ih]
      congr 1
      exact List.Perm.eq_of_pairwise (fun _ _ _ _ h1 h2 => le_antisymm h1 h2) (List.pairwise_insertionSort _ _) (List.pairwise_insertionSort _ _)
        ((List.perm_insertionSort _ _).trans (h.trans (List.perm_insertionSort _ _).symm))
  rw [hsame]
  obtain ⟨x, h1, h2⟩ := C140_greater (sortEachLayer b) b
  rw [h1]
  have hsum : (sortEachLayer b).map List.sum = b.map List.sum := by
    unfold sortEachLayer
    rw [List.map_map]
    apply List.map_congr_left
    intro l _
    exact (List.perm_insertionSort _ l).sum_eq
  have hle : sortEachLayer b ≤ b := map_le (fun l => sorted_le _ _ (List.perm_insertionSort _ _) (List.pairwise_insertionSort _ _)) b
  cases x with
  | false => rfl
  | true =>
    have := h2.1 rfl
    rw [greater_iff, hsum, mkRow_lt] at this
    rcases this with h | ⟨_, h | ⟨_, h⟩⟩
    · exact absurd h (lt_irrefl _)
    · exact absurd h (lt_irrefl _)
    · exact absurd h (not_lt.2 hle)

example : layeredIsGreater [[2, 0], [0, 2]] [[0, 1], [0, 3]] = .ok true ∧ layeredIsGreater [[1], [1]] [[0], [3]] = .ok false ∧ layeredIsGreater [[1, 0], [0, 2]] [[0, 1], [1, 1]] = .ok true ∧
    sortEachLayer [[1], [1, 0, 1]] = [[1], [0, 1, 1]] := by decide +kernel

/-! ## C141 -/

/-- `f` does not come after `g`: its layered weight is lexicographically smaller; or that is equal, and its layered table is smaller; or that is also equal, and the
string of its table is not greater. -/
def SwanLe (f g : Boolf) : Prop :=
  ∃ w w' t t' b b' p p', f.layeredWeight = .ok w ∧ g.layeredWeight = .ok w' ∧ f.layeredTT = .ok t ∧ g.layeredTT = .ok t' ∧ f.tt = .ok b ∧ g.tt = .ok b' ∧
    b.pretty = .ok p ∧ b'.pretty = .ok p' ∧ (w < w' ∨ w = w' ∧ (t < t' ∨ t = t' ∧ p ≤ p'))

/-- the same for the reflected layers -/
def ReflectedLe (f g : Boolf) : Prop :=
  ∃ w w' t t' b b' p p', f.layeredWeight = .ok w ∧ g.layeredWeight = .ok w' ∧ f.layeredTT = .ok t ∧ g.layeredTT = .ok t' ∧ f.tt = .ok b ∧ g.tt = .ok b' ∧
    b.pretty = .ok p ∧ b'.pretty = .ok p' ∧ (w.reverse < w'.reverse ∨ w.reverse = w'.reverse ∧
      (t.reverse.map List.reverse < t'.reverse.map List.reverse ∨ t.reverse.map List.reverse = t'.reverse.map List.reverse ∧ p ≤ p'))

theorem mkRow_le {α β γ : Type} [LinearOrder α] [LinearOrder β] [LinearOrder γ] {a a' : α} {b b' : β} {c c' : γ} :
    mkRow a b c ≤ mkRow a' b' c' ↔ a < a' ∨ a = a' ∧ (b < b' ∨ b = b' ∧ c ≤ c') := by
  rw [le_iff_lt_or_eq, mkRow_lt, mkRow_inj, le_iff_lt_or_eq]
  tauto

theorem swanRow_spec {f : Boolf} (hf : Reach f) (ha : f.adicity ≤ 6) : ∃ w t b p, f.layeredWeight = .ok w ∧ f.layeredTT = .ok t ∧ f.tt = .ok b ∧ b.pretty = .ok p ∧
    f.swanRow true = .ok (mkRow w t p) ∧ f.swanRow false = .ok (mkRow w.reverse (t.reverse.map List.reverse) p) ∧ newTT (.str p) = .ok f := by
  have hs := hf.canon.toSound
  obtain ⟨t, w, h1, h2, _⟩ := C78_layered_tt f hf.obj
  have h3 := tt_eq hs
  generalize hb : (⟨(List.range (2 ^ f.adicity)).map fun k => f.eval k.testBit⟩ : Binv) = b at h3
  have hbl : b.length = 2 ^ f.adicity := by rw [← hb]; simp [Binv.length]
  obtain ⟨p, hp⟩ := (C57_pretty b).1.2 ⟨f.adicity, ha, hbl⟩
  refine ⟨w, t, b, p, h2, h1, h3, hp, ?_, ?_, ?_⟩
  · unfold Boolf.swanRow
    rw [h2, h1, h3]
    simp only [bind, Except.bind, hp]
    rfl
  · unfold Boolf.swanRow
    rw [h2, h1, h3]
    simp only [bind, Except.bind, hp]
    rfl
  · have hpf : p.filter (· ≠ ' ') = b.vector.map fun b => if b then '1' else '0' := by
      unfold Binv.pretty at hp
      split at hp
      · cases hp
        exact prettyLoop_filter _ _ _
      · cases hp
    rw [(C64_formats b.vector none false p hpf).2.1]
    obtain ⟨b', b1, b2, _⟩ := C51_rebuild f hf f.adicity le_rfl
    rw [← tt_noArg_eq, h3] at b1
    cases b1
    exact b2

theorem getLast_greatest {α : Type} [LinearOrder α] {l : List α} {x : α} (h : (l.insertionSort (· ≤ ·)).getLast? = some x) : x ∈ l ∧ ∀ y ∈ l, y ≤ x := by
  have hp := List.perm_insertionSort (· ≤ ·) l
  have hs := List.pairwise_insertionSort (· ≤ ·) l
  generalize l.insertionSort (· ≤ ·) = s at h hp hs
  obtain ⟨s', rfl⟩ := List.getLast?_eq_some_iff.1 h
  refine ⟨hp.mem_iff.1 (by simp), fun y hy => ?_⟩
  rcases List.mem_append.1 (hp.mem_iff.2 hy) with h1 | h1
  · exact (List.pairwise_append.1 hs).2.2 y h1 x (by simp)
  · exact (List.mem_singleton.1 h1).le

theorem head_least {α : Type} [LinearOrder α] {l : List α} {x : α} (h : (l.insertionSort (· ≤ ·)).head? = some x) : x ∈ l ∧ ∀ y ∈ l, x ≤ y := by
  have hp := List.perm_insertionSort (· ≤ ·) l
  have hs := List.pairwise_insertionSort (· ≤ ·) l
  generalize l.insertionSort (· ≤ ·) = s at h hp hs
  obtain ⟨s', rfl⟩ := List.head?_eq_some_iff.1 h
  refine ⟨hp.mem_iff.1 (by simp), fun y hy => ?_⟩
  rcases List.mem_cons.1 (hp.mem_iff.2 hy) with h1 | h1
  · exact h1.ge
  · exact (List.pairwise_cons.1 hs).1 y h1

theorem swan_true {L : List Boolf} (hL : ∀ f ∈ L, Reach f ∧ f.adicity ≤ 6) (h0 : L ≠ []) : ∃ f ∈ L, boolfsToSwan L true = .ok f ∧ ∀ g ∈ L, SwanLe g f := by
  have hrow : ∀ f ∈ L, ∃ r, f.swanRow true = .ok r := fun f hf => by
    obtain ⟨w, t, b, p, _, _, _, _, h, _⟩ := swanRow_spec (hL f hf).1 (hL f hf).2
    exact ⟨_, h⟩
  let row : Boolf → Row (List Nat) (List (List Nat)) (List Char) := fun f => match f.swanRow true with | .ok r => r | .error _ => mkRow [] [] []
  have hr : ∀ f ∈ L, f.swanRow true = .ok (row f) := fun f hf => by
    obtain ⟨r, hr⟩ := hrow f hf
    simp only [row, hr]
  have hm : L.mapM (fun f => f.swanRow true) = .ok (L.map row) := mapM_ok hr
  cases hl : ((L.map row).insertionSort (· ≤ ·)).getLast? with
  | none =>
    have := congrArg List.length (List.getLast?_eq_none_iff.1 hl)
    rw [List.length_insertionSort, List.length_map] at this
    exact absurd (List.length_eq_zero_iff.1 this) h0
  | some x =>
    obtain ⟨h1, h2⟩ := getLast_greatest hl
    obtain ⟨f, hf, rfl⟩ := List.mem_map.1 h1
    obtain ⟨w, t, b, p, f1, f2, f3, f4, f5, _, f6⟩ := swanRow_spec (hL f hf).1 (hL f hf).2
    have e := hr f hf
    rw [f5] at e
    have e := Except.ok.inj e
    refine ⟨f, hf, ?_, fun g hg => ?_⟩
    · unfold boolfsToSwan
      simp only [bind, Except.bind, hm, if_true, hl]
      rw [← e, third_mkRow]
      exact f6
    · obtain ⟨w', t', b', p', g1, g2, g3, g4, g5, _⟩ := swanRow_spec (hL g hg).1 (hL g hg).2
      have e' := hr g hg
      rw [g5] at e'
      have e' := Except.ok.inj e'
      have := h2 (row g) (List.mem_map.2 ⟨g, hg, rfl⟩)
      rw [← e, ← e', mkRow_le] at this
      exact ⟨w', w, t', t, b', b, p', p, g1, f1, g2, f2, g3, f3, g4, f4, this⟩

theorem swan_false {L : List Boolf} (hL : ∀ f ∈ L, Reach f ∧ f.adicity ≤ 6) (h0 : L ≠ []) : ∃ f ∈ L, boolfsToSwan L false = .ok f ∧ ∀ g ∈ L, ReflectedLe f g := by
  have hrow : ∀ f ∈ L, ∃ r, f.swanRow false = .ok r := fun f hf => by
    obtain ⟨w, t, b, p, _, _, _, _, _, h, _⟩ := swanRow_spec (hL f hf).1 (hL f hf).2
    exact ⟨_, h⟩
  let row : Boolf → Row (List Nat) (List (List Nat)) (List Char) := fun f => match f.swanRow false with | .ok r => r | .error _ => mkRow [] [] []
  have hr : ∀ f ∈ L, f.swanRow false = .ok (row f) := fun f hf => by
    obtain ⟨r, hr⟩ := hrow f hf
    simp only [row, hr]
  have hm : L.mapM (fun f => f.swanRow false) = .ok (L.map row) := mapM_ok hr
  cases hl : ((L.map row).insertionSort (· ≤ ·)).head? with
  | none =>
    have := congrArg List.length (List.head?_eq_none_iff.1 hl)
    rw [List.length_insertionSort, List.length_map] at this
    exact absurd (List.length_eq_zero_iff.1 this) h0
  | some x =>
    obtain ⟨h1, h2⟩ := head_least hl
    obtain ⟨f, hf, rfl⟩ := List.mem_map.1 h1
    obtain ⟨w, t, b, p, f1, f2, f3, f4, _, f5, f6⟩ := swanRow_spec (hL f hf).1 (hL f hf).2
    have e := hr f hf
    rw [f5] at e
    have e := Except.ok.inj e
    refine ⟨f, hf, ?_, fun g hg => ?_⟩
    · unfold boolfsToSwan
      simp only [bind, Except.bind, hm, Bool.false_eq_true, if_false, hl]
      rw [← e, third_mkRow]
      exact f6
    · obtain ⟨w', t', b', p', g1, g2, g3, g4, _, g5, _⟩ := swanRow_spec (hL g hg).1 (hL g hg).2
      have e' := hr g hg
      rw [g5] at e'
      have e' := Except.ok.inj e'
      have := h2 (row g) (List.mem_map.2 ⟨g, hg, rfl⟩)
      rw [← e, ← e', mkRow_le] at this
      exact ⟨w, w', t, t', b, b', p, p', f1, g1, f2, g2, f3, g3, f4, g4, this⟩

/-- the comparisons are antisymmetric -/
theorem swanLe_antisymm {f g : Boolf} (hf : Reach f) (hg : Reach g) (haf : f.adicity ≤ 6) (hag : g.adicity ≤ 6) :
    (SwanLe f g → SwanLe g f → f = g) ∧ (ReflectedLe f g → ReflectedLe g f → f = g) := by
  obtain ⟨w, t, b, p, f1, f2, f3, f4, _, _, f6⟩ := swanRow_spec hf haf
  obtain ⟨w', t', b', p', g1, g2, g3, g4, _, _, g6⟩ := swanRow_spec hg hag
  have done : p = p' → f = g := by
    rintro rfl
    rw [f6] at g6
    exact Except.ok.inj g6
  constructor
  · rintro ⟨_, _, _, _, _, _, _, _, a1, a2, a3, a4, a5, a6, a7, a8, a9⟩ ⟨_, _, _, _, _, _, _, _, c1, c2, c3, c4, c5, c6, c7, c8, c9⟩
    rw [f1] at a1 c2
    rw [g1] at a2 c1
    rw [f2] at a3 c4
    rw [g2] at a4 c3
    rw [f3] at a5 c6
    rw [g3] at a6 c5
    cases a1; cases a2; cases a3; cases a4; cases a5; cases a6; cases c1; cases c2; cases c3; cases c4; cases c5; cases c6
    rw [f4] at a7 c8
    rw [g4] at a8 c7
    cases a7; cases a8; cases c7; cases c8
    exact done (mkRow_inj.1 (le_antisymm (mkRow_le.2 a9) (mkRow_le.2 c9))).2.2
  · rintro ⟨_, _, _, _, _, _, _, _, a1, a2, a3, a4, a5, a6, a7, a8, a9⟩ ⟨_, _, _, _, _, _, _, _, c1, c2, c3, c4, c5, c6, c7, c8, c9⟩
    rw [f1] at a1 c2
    rw [g1] at a2 c1
    rw [f2] at a3 c4
    rw [g2] at a4 c3
    rw [f3] at a5 c6
    rw [g3] at a6 c5
    cases a1; cases a2; cases a3; cases a4; cases a5; cases a6; cases c1; cases c2; cases c3; cases c4; cases c5; cases c6
    rw [f4] at a7 c8
    rw [g4] at a8 c7
    cases a7; cases a8; cases c7; cases c8
    exact done (mkRow_inj.1 (le_antisymm (mkRow_le.2 a9) (mkRow_le.2 c9))).2.2

/-- **C141.** For functions with adicity up to 6, the verophile swan is the only greatest of them, and the falsophobe swan is the only one that is least with
reflected layers. -/
theorem C141_swan (L : List Boolf) (hL : ∀ f ∈ L, Reach f ∧ f.adicity ≤ 6) (h0 : L ≠ []) :
    (∃ f ∈ L, boolfsToSwan L true = .ok f ∧ (∀ g ∈ L, SwanLe g f) ∧ ∀ f' ∈ L, (∀ g ∈ L, SwanLe g f') → f' = f) ∧
    (∃ f ∈ L, boolfsToSwan L false = .ok f ∧ (∀ g ∈ L, ReflectedLe f g) ∧ ∀ f' ∈ L, (∀ g ∈ L, ReflectedLe f' g) → f' = f) := by
  constructor
  · obtain ⟨f, hf, h1, h2⟩ := swan_true hL h0
    exact ⟨f, hf, h1, h2, fun f' hf' h => (swanLe_antisymm (hL f' hf').1 (hL f hf).1 (hL f' hf').2 (hL f hf).2).1 (h2 f' hf') (h f hf)⟩
  · obtain ⟨f, hf, h1, h2⟩ := swan_false hL h0
    exact ⟨f, hf, h1, h2, fun f' hf' h => (swanLe_antisymm (hL f' hf').1 (hL f hf).1 (hL f' hf').2 (hL f hf).2).2 (h f hf) (h2 f' hf')⟩

/-- **C141.** Order and repetitions of the functions are irrelevant. -/
theorem C141_order (L L' : List Boolf) (hL : ∀ f ∈ L, Reach f ∧ f.adicity ≤ 6) (h : ∀ f, f ∈ L ↔ f ∈ L') (v : Bool) : boolfsToSwan L v = boolfsToSwan L' v := by
  by_cases h0 : L = []
  · subst h0
    have : L' = [] := by
      rw [List.eq_nil_iff_forall_not_mem]
      exact fun f hf => absurd ((h f).2 hf) (by simp)
    rw [this]
  · have h0' : L' ≠ [] := by
      obtain ⟨f, hf⟩ := List.exists_mem_of_ne_nil L h0
      exact List.ne_nil_of_mem ((h f).1 hf)
    have hL' : ∀ f ∈ L', Reach f ∧ f.adicity ≤ 6 := fun f hf => hL f ((h f).2 hf)
    cases v with
    | true =>
      obtain ⟨f, hf, h1, h2, h3⟩ := (C141_swan L hL h0).1
      obtain ⟨g, hg, g1, g2, g3⟩ := (C141_swan L' hL' h0').1
      rw [h1, g1, h3 g ((h g).2 hg) fun x hx => g2 x ((h x).1 hx)]
    | false =>
      obtain ⟨f, hf, h1, h2, h3⟩ := (C141_swan L hL h0).2
      obtain ⟨g, hg, g1, g2, g3⟩ := (C141_swan L' hL' h0').2
      rw [h1, g1, h3 g ((h g).2 hg) fun x hx => g2 x ((h x).1 hx)]

/-- **C141.** An empty list raises an `IndexError`; a function with adicity above 6 raises a `PrettyLengthError`. -/
theorem C141_error (L : List Boolf) (hL : ∀ f ∈ L, Reach f) (v : Bool) :
    (L = [] → boolfsToSwan L v = .error .indexError) ∧ ((∃ f ∈ L, 6 < f.adicity) → boolfsToSwan L v = .error .prettyLength) := by
  constructor
  · rintro rfl
    cases v <;> rfl
  · intro h
    have hbad : ∀ f ∈ L, 6 < f.adicity → f.swanRow v = .error .prettyLength := by
      intro f hf ha
      obtain ⟨t, w, h1, h2, _⟩ := C78_layered_tt f (hL f hf).obj
      unfold Boolf.swanRow
      rw [h2, h1, tt_eq (hL f hf).canon.toSound]
      simp only [bind, Except.bind]
      have : (⟨(List.range (2 ^ f.adicity)).map fun k => f.eval k.testBit⟩ : Binv).pretty = .error .prettyLength := by
        cases hp : (⟨(List.range (2 ^ f.adicity)).map fun k => f.eval k.testBit⟩ : Binv).pretty with
        | error e => rw [(C57_pretty _).2.1 e hp]
        | ok s =>
          obtain ⟨k, hk, he⟩ := (C57_pretty _).1.1 ⟨s, hp⟩
          simp only [Binv.length, List.length_map, List.length_range] at he
          have := Nat.pow_right_injective (le_refl 2) he
          omega
      rw [this]
    unfold boolfsToSwan
    rw [P.mapM_error (e := .prettyLength) _ (by obtain ⟨f, hf, ha⟩ := h; exact ⟨f, hf, hbad f hf ha⟩)]
    · rfl
    · intro f hf
      by_cases ha : f.adicity ≤ 6
      · obtain ⟨w, t, b, p, _, _, _, _, r1, r2, _⟩ := swanRow_spec (hL f hf) ha
        cases v
        · exact Or.inl ⟨_, r2⟩
        · exact Or.inl ⟨_, r1⟩
      · exact Or.inr (hbad f hf (by omega))

/-- The verophile swan of conjunction, disjunction, exclusive or and the second atom is the disjunction.  The falsophobe swan of the last three is the exclusive or. -/
example : ∃ f g h a, newTT (.str "0001".toList) = .ok f ∧ newTT (.str "0111".toList) = .ok g ∧ newTT (.str "0110".toList) = .ok h ∧ newTT (.str "0011".toList) = .ok a ∧
    boolfsToSwan [f, g, h, a] true = .ok g ∧ boolfsToSwan [h, g, a] false = .ok h ∧ boolfsToSwan [g, a] false = .ok a := by
  refine ⟨_, _, _, _, rfl, rfl, rfl, rfl, ?_⟩
  decide +kernel

end Verif.BF
