import Verif.Boolf.Props36
import Mathlib.Data.Nat.Choose.Basic
import Mathlib.Logic.Equiv.Fintype

/-!
# C95: the equivalence class under permutation of atoms (`ec_faction`)
-/

namespace Verif.BF
open Verif.Py Verif.BV Verif.P Verif.W Verif.SP
open Verif.A hiding Mat

/-! ## combinations -/

theorem mem_combinations {α : Type} (l : List α) (k : Nat) (c : List α) : c ∈ combinations l k ↔ c.Sublist l ∧ c.length = k := by
  induction l generalizing k c with
  | nil =>
    cases k with
    | zero => simp only [combinations, List.mem_singleton, List.sublist_nil]; exact ⟨fun h => ⟨h, by rw [h]; rfl⟩, fun h => h.1⟩
    | succ k => simp only [combinations, List.not_mem_nil, List.sublist_nil, false_iff]; rintro ⟨rfl, h⟩; cases h
  | cons x l ih =>
    cases k with
    | zero =>
      simp only [combinations, List.mem_singleton, List.length_eq_zero_iff]
      exact ⟨fun h => ⟨by rw [h]; exact List.nil_sublist _, h⟩, fun h => h.2⟩
    | succ k =>
      simp only [combinations, List.mem_append, List.mem_map, ih, List.sublist_cons_iff]
      constructor
      · rintro (⟨d, ⟨h1, h2⟩, rfl⟩ | ⟨h1, h2⟩)
        · exact ⟨Or.inr ⟨d, rfl, h1⟩, by simp [h2]⟩
        · exact ⟨Or.inl h1, h2⟩
      · rintro ⟨h1 | ⟨d, rfl, h1⟩, h2⟩
        · exact Or.inr ⟨h1, h2⟩
        · exact Or.inl ⟨d, ⟨h1, by simpa using h2⟩, rfl⟩

theorem length_combinations {α : Type} (l : List α) (k : Nat) : (combinations l k).length = Nat.choose l.length k := by
  induction l generalizing k with
  | nil => cases k <;> simp [combinations]
  | cons x l ih => cases k with
    | zero => simp [combinations]
    | succ k => simp [combinations, ih, Nat.choose_succ_succ]

theorem nodup_combinations {α : Type} (l : List α) (hl : l.Nodup) (k : Nat) : (combinations l k).Nodup := by
  induction l generalizing k with
  | nil => cases k <;> simp [combinations]
  | cons x l ih =>
    cases k with
    | zero => simp [combinations]
    | succ k =>
      rw [List.nodup_cons] at hl
      simp only [combinations]
      rw [List.nodup_append]
      refine ⟨(ih hl.2 k).map (fun a b h => (List.cons.inj h).2), ih hl.2 _, ?_⟩
      rintro _ ha b hb rfl
      obtain ⟨d, _, rfl⟩ := List.mem_map.1 ha
      have := ((mem_combinations _ _ _).1 hb).1.subset (by simp : x ∈ x :: d)
      exact hl.1 this

theorem sublist_range {n : Nat} {c : List Nat} : c.Sublist (List.range n) ↔ c.Pairwise (· < ·) ∧ ∀ x ∈ c, x < n := by
  constructor
  · intro h
    exact ⟨List.pairwise_lt_range.sublist h, fun x hx => List.mem_range.1 (h.subset hx)⟩
  · rintro ⟨h1, h2⟩
    have hsub : c.Subperm (List.range n) := List.subperm_of_subset (h1.imp (fun h => Nat.ne_of_lt h)) (fun x hx => List.mem_range.2 (h2 x hx))
    exact List.sublist_of_subperm_of_pairwise hsub (h1.imp Nat.le_of_lt) (List.pairwise_lt_range.imp Nat.le_of_lt)

theorem mem_combinations_range (n k : Nat) (c : List Nat) : c ∈ combinations (List.range n) k ↔ c.Pairwise (· < ·) ∧ (∀ x ∈ c, x < n) ∧ c.length = k := by
  rw [mem_combinations, sublist_range, and_assoc]

/-! ## application to literals -/

/-- `g` is `f` with the literals `w` instead of the atoms -/
def Lits (f : Boolf) (w : Nat → Int) (g : Boolf) : Prop := Canon g ∧ ∀ a, g.eval a = f.eval fun x => lit a (w x)

theorem apply_lits {f : Boolf} (hf : Good f) (hc : f.isConstant = false) {z : List Int} (hl : z.length = f.valency)
    (hn : (z.map fun x => (logicAbs x).toNat).Nodup) : ∃ g, f.apply z = .ok g ∧ Lits f (fun x => z.getD (f.atomvals.idxOf x) 0) g := by
  have hne : f.atomvals ≠ [] := fun h => by rw [hf.const.2 h] at hc; cases hc
  obtain ⟨g, g1, g2, g3⟩ := (apply_spec hf.toSound (perm := z) hl (by rw [hf.val]; simpa using hne)).1 hn
  refine ⟨g, g1, g2, fun a => ?_⟩
  rw [g3]
  unfold Boolf.eval
  congr 2
  apply List.ext_getElem?
  intro k
  rw [List.getElem?_map, List.getElem?_map]
  by_cases hk : k < z.length
  · have hk' : k < f.atomvals.length := by rw [← hf.val, ← hl]; exact hk
    rw [List.getElem?_eq_getElem hk, List.getElem?_eq_getElem hk']
    simp only [Option.map_some]
    rw [hf.toSound.nodup.idxOf_getElem k hk', List.getD_eq_getElem?_getD, List.getElem?_eq_getElem hk]
    rfl
  · rw [List.getElem?_eq_none (by omega), List.getElem?_eq_none (by rw [← hf.val, ← hl]; omega)]
    rfl

theorem Lits.key {f g : Boolf} {w : Nat → Int} (hf : Sound f) (h : Lits f w g) {key key' : Nat} (hk : ∀ x ∈ f.atomvals, key'.testBit x = lit key.testBit (w x)) :
    g.getItem key = f.getItem key' := by
  rw [getItem_eq h.1.toSound, getItem_eq hf, h.2]
  congr 1
  exact Boolf.eval_congr fun x hx => (hk x hx).symm

/-- Two functions with the same literals for the atoms are equal. -/
theorem Lits.unique {f g h : Boolf} {w w' : Nat → Int} (hg : Lits f w g) (hh : Lits f w' h) (e : ∀ x ∈ f.atomvals, w x = w' x) : g = h := by
  apply hg.1.ext hh.1
  intro a
  rw [hg.2, hh.2]
  exact Boolf.eval_congr fun x hx => by rw [e x hx]

theorem Lits.congr {f g : Boolf} {w w' : Nat → Int} (hg : Lits f w g) (e : ∀ x ∈ f.atomvals, w x = w' x) : Lits f w' g :=
  ⟨hg.1, fun a => by rw [hg.2]; exact Boolf.eval_congr fun x hx => by rw [e x hx]⟩

/-- a function with the values of `f` for the literals -/
theorem Lits.of_key {f g : Boolf} {w : Nat → Int} (hf : Sound f) (hg : Canon g)
    (h : ∀ key key' : Nat, (∀ x ∈ f.atomvals, key'.testBit x = lit key.testBit (w x)) → g.getItem key = f.getItem key')
    (hw : ∃ g', Lits f w g') : Lits f w g := by
  obtain ⟨g', hg'⟩ := hw
  have : g = g' := by
    apply hg.ext_key hg'.1
    intro key
    obtain ⟨key', _, hk⟩ := exists_key hf fun x => lit key.testBit (w x)
    rw [h key key' hk, hg'.key hf hk]
  rw [this]; exact hg'

/-! ## the loops -/

theorem covers {l : List Nat} {N : Nat} (hl : l.length = N) (h : ∀ n, n < N → n ∈ l) : l.Nodup ∧ ∀ x ∈ l, x < N := by
  have hsub : (List.range N).Subperm l := List.subperm_of_subset List.nodup_range (fun x hx => h x (List.mem_range.1 hx))
  have hp := hsub.perm_of_length_le (by simp [hl])
  exact ⟨hp.nodup_iff.1 List.nodup_range, fun x hx => List.mem_range.1 (hp.mem_iff.2 hx)⟩

theorem labelElements_covers {α : Type} (element : α → Nat) (label : α → Except Err Boolf) (P : α → Boolf → Prop) (items : List α) (dims : List Nat)
    (hl : ∀ i ∈ items, ∃ g, label i = .ok g ∧ P i g) (hlen : items.length = dims.prod) (he : ∀ n, n < dims.prod → ∃ i ∈ items, element i = n) :
    ∃ p q lab, newPart [] (domainOf dims) = .ok p ∧ labelElements element label items p = .ok q ∧ Labelling q dims.prod lab ∧
      ∀ i ∈ items, P i (lab (element i)) := by
  obtain ⟨h1, h2⟩ := covers (l := items.map element) (N := dims.prod) (by rw [List.length_map, hlen]) (fun n hn => List.mem_map.2 (he n hn))
  obtain ⟨p, q, lab, q1, q2, q3, q4⟩ := labelElements_spec element label P items dims hl
    (fun n => ⟨he n, fun ⟨i, hi, e⟩ => by rw [← e]; exact h2 _ (List.mem_map_of_mem hi)⟩) h1
  exact ⟨p, q, lab, q1, q2, q3, fun i hi => (q4 i hi).2⟩

theorem mem_zipIdx_iff {α : Type} (l : List α) (x : α) (k : Nat) : (x, k) ∈ l.zipIdx ↔ l[k]? = some x := by
  rw [List.mem_zipIdx_iff_getElem?]

theorem length_flatMap_const {α β : Type} (l : List α) (g : α → List β) (N : Nat) (h : ∀ x ∈ l, (g x).length = N) : (l.flatMap g).length = l.length * N := by
  rw [List.length_flatMap, List.map_congr_left (g := fun _ => N) h]
  simp

/-- the permutation with a given index, and the entry of the list of arrangements -/
theorem perm_at {n k : Nat} {s : List Nat} (h : (revColexPerms n)[k]? = some s) :
    s.Perm (List.range n) ∧ ∃ p, mkPerm (.seq s) = .ok p ∧ Constructed p ∧ p.perilen = none ∧ p.length ≤ n ∧ (∀ i, i < n → s[i]? = some (p.get i)) ∧
      ∃ p', intToPerm k = .ok p' ∧ ∀ i, p'.get i = p.get i := by
  have hs := (mem_revColexPerms n s).1 (List.mem_of_getElem? h)
  refine ⟨hs, ?_⟩
  obtain ⟨p, p1, p2, p3, p4, p5, p6⟩ := perm_of_seq hs
  refine ⟨p, p1, p2, p3, p4, p6, ?_⟩
  have hk : k < Nat.factorial n := by rw [← length_revColexPerms n]; exact (List.getElem?_eq_some_iff.1 h).1
  obtain ⟨p', q1, q2, q3, q4⟩ := (C93_rev_colex_perms n).2.2.2 k hk
  obtain ⟨p'', r1, r2, r3, _⟩ := C15_rank_of_int k
  rw [q1] at r1
  cases r1
  refine ⟨p', q1, fun i => ?_⟩
  by_cases hi : i < n
  · rw [q4] at h
    have h' := Option.some.inj h
    have := p6 i hi
    rw [← h'] at this
    simpa [hi] using this
  · rw [r2.wf.finite_bounded r3 (by omega), p2.wf.finite_bounded p3 (by omega)]

/-! ## the members -/

theorem member_short {f : Boolf} (hf : Obj f) (hc : f.isConstant = false) {n : Nat} {s : List Nat} (hs : s.Perm (List.range n)) :
    ∃ g, f.applySigperm (.list (s.map Int.ofNat)) = .ok g ∧ Lits f (fun x => (((s[x]?).getD x : Nat) : Int)) g := by
  have hl : s.length = n := by rw [hs.length_eq]; simp
  have e : (s.map Int.ofNat).map (fun z : Int => if z < 0 then (-z - 1).toNat else z.toNat) = s := by
    rw [List.map_map]
    conv_rhs => rw [← List.map_id s]
    apply List.map_congr_left
    intro x _
    simp only [Function.comp, Int.ofNat_eq_natCast]
    rw [if_neg (by omega)]
    simp
  have hp : ((s.map Int.ofNat).map (fun z : Int => if z < 0 then (-z - 1).toNat else z.toNat)).Perm (List.range (s.map Int.ofNat).length) := by
    rw [e, List.length_map, hl]; exact hs
  obtain ⟨t, t1, t2, t3⟩ := (C70_list f (s.map Int.ofNat)).1 hp
  obtain ⟨t', t1', _, t4⟩ := (SG.C31_of_sequence (s.map Int.ofNat)).1 hp
  rw [t1] at t1'
  cases t1'
  obtain ⟨g, g1, g2, g3⟩ := apply_value hf.good (w := t.value) (fun x y => value_inj t2) hc
  refine ⟨g, by rw [t3, (applySigperm_spec hf.good t2).2 hc, g1], g2, fun a => ?_⟩
  rw [g3]
  apply Boolf.eval_congr
  intro x _
  rw [t4, List.getElem?_map]
  congr 1
  cases h : s[x]? <;> simp [h]

theorem member_long {f : Boolf} (hf : Good f) (hc : f.isConstant = false) {s c : List Nat} (hs : s.Perm (List.range f.valency)) (hcl : c.length = f.valency)
    (hcn : c.Nodup) :
    ∃ g, ∃ w : List Nat, f.factionMember s c = .ok g ∧ w.Perm c ∧ (∀ i j : Nat, s[i]? = some j → w[j]? = c[i]?) ∧
      Lits f (fun x => ((w.getD (f.atomvals.idxOf x) 0 : Nat) : Int)) g := by
  obtain ⟨p, p1, p2, p3, p4, p5, p6⟩ := perm_of_seq hs
  have hb := p2.wf.maps_below f.valency (Or.inl ⟨p3, p4⟩)
  obtain ⟨w, w1, w2, w3, w4⟩ := (C12_apply_on_vector p p2 c).1 (by rw [hcl]; exact hb)
  obtain ⟨g, g1, g2⟩ := apply_lits hf hc (z := w.map Int.ofNat) (by rw [List.length_map, w2, hcl]) (by
    rw [List.map_map, show (w.map ((fun x : Int => (logicAbs x).toNat) ∘ Int.ofNat)) = w from by
      conv_rhs => rw [← List.map_id w]
      apply List.map_congr_left
      intro x _
      simp only [Function.comp, Int.ofNat_eq_natCast]
      rw [logicAbs_natCast]; rfl]
    exact w4.nodup_iff.2 hcn)
  refine ⟨g, w, ?_, w4, ?_, g2.congr fun x _ => ?_⟩
  · unfold Boolf.factionMember
    rw [p1]
    simp only [bind, Except.bind]
    rw [w1]
    exact g1
  · intro i j hij
    have hi : i < f.valency := by rw [← List.length_range (n := f.valency), ← hs.length_eq]; exact (List.getElem?_eq_some_iff.1 hij).1
    rw [p6 i hi] at hij
    cases hij
    exact w3 i (by omega)
  · rw [List.getD_eq_getElem?_getD, List.getD_eq_getElem?_getD, List.getElem?_map]
    cases w[f.atomvals.idxOf x]? <;> rfl

theorem code_two (a b m n : Nat) : code [a, b] [m, n] = m * b + n := by simp [code]

theorem code_three (a b c m n k : Nat) : code [a, b, c] [m, n, k] = (m * b + n) * c + k := by simp [code]

theorem ecFactionShort_spec {f : Boolf} (hf : Obj f) (hc : f.isConstant = false) (n : Nat) :
    ∃ q lab, f.ecFactionShort n = .ok { part := q, dims := [Nat.factorial n] } ∧ Labelling q (Nat.factorial n) lab ∧
      ∀ k s, (revColexPerms n)[k]? = some s → Lits f (fun x => (((s[x]?).getD x : Nat) : Int)) (lab k) := by
  have hcode : ∀ k, code [Nat.factorial n] [k] = k := by intro k; simp [code]
  obtain ⟨p, q, lab, h1, h2, h3, h4⟩ := labelElements_covers (fun p : List Nat × Nat => code [Nat.factorial n] [p.2])
    (fun p => f.applySigperm (.list (p.1.map Int.ofNat))) (fun p g => Lits f (fun x => (((p.1[x]?).getD x : Nat) : Int)) g) (revColexPerms n).zipIdx [Nat.factorial n]
    (by
      rintro ⟨s, k⟩ hk
      rw [mem_zipIdx_iff] at hk
      exact member_short hf hc ((mem_revColexPerms n s).1 (List.mem_of_getElem? hk)))
    (by rw [List.length_zipIdx, length_revColexPerms]; simp)
    (by
      intro k hk
      rw [List.prod_singleton, ← length_revColexPerms n] at hk
      exact ⟨((revColexPerms n)[k], k), by rw [mem_zipIdx_iff, List.getElem?_eq_getElem hk], hcode k⟩)
  rw [List.prod_singleton] at h3
  refine ⟨q, lab, ?_, h3, ?_⟩
  · unfold Boolf.ecFactionShort
    simp only [bind, Except.bind, pure, Except.pure]
    rw [h1]
    simp only
    rw [h2]
  · intro k s hk
    have := h4 (s, k) ((mem_zipIdx_iff _ _ _).2 hk)
    simp only [hcode] at this
    exact this

theorem ecFactionLong_spec {f : Boolf} (hf : Good f) (hc : f.isConstant = false) (n : Nat) :
    ∃ q lab, f.ecFactionLong n = .ok { part := q, dims := [Nat.factorial f.valency, Nat.choose n f.valency], combos := some (combinations (List.range n) f.valency) } ∧
      Labelling q (Nat.factorial f.valency * Nat.choose n f.valency) lab ∧
      ∀ k s c co, (revColexPerms f.valency)[k]? = some s → (combinations (List.range n) f.valency)[c]? = some co →
        ∃ w : List Nat, w.Perm co ∧ (∀ i j : Nat, s[i]? = some j → w[j]? = co[i]?) ∧
          Lits f (fun x => ((w.getD (f.atomvals.idxOf x) 0 : Nat) : Int)) (lab (k * Nat.choose n f.valency + c)) := by
  have hC : (combinations (List.range n) f.valency).length = Nat.choose n f.valency := by rw [length_combinations, List.length_range]
  have hmem : ∀ c k, (c, k) ∈ comboPermPairs (combinations (List.range n) f.valency) (revColexPerms f.valency) ↔
      (combinations (List.range n) f.valency)[c.2]? = some c.1 ∧ (revColexPerms f.valency)[k.2]? = some k.1 := by
    intro c k
    unfold comboPermPairs
    rw [List.mem_flatMap, ← mem_zipIdx_iff, ← mem_zipIdx_iff]
    constructor
    · rintro ⟨c', h1, h2⟩
      obtain ⟨k', h3, h4⟩ := List.mem_map.1 h2
      cases h4
      exact ⟨h1, h3⟩
    · rintro ⟨h1, h2⟩
      exact ⟨c, h1, List.mem_map.2 ⟨k, h2, rfl⟩⟩
  have hpr : ([Nat.factorial f.valency, (combinations (List.range n) f.valency).length]).prod = Nat.factorial f.valency * Nat.choose n f.valency := by simp [hC]
  obtain ⟨p, q, lab, h1, h2, h3, h4⟩ := labelElements_covers
    (fun i : (List Nat × Nat) × (List Nat × Nat) => code [Nat.factorial f.valency, (combinations (List.range n) f.valency).length] [i.2.2, i.1.2])
    (fun i => f.factionMember i.2.1 i.1.1)
    (fun i g => ∃ w : List Nat, w.Perm i.1.1 ∧ (∀ a b : Nat, i.2.1[a]? = some b → w[b]? = i.1.1[a]?) ∧ Lits f (fun x => ((w.getD (f.atomvals.idxOf x) 0 : Nat) : Int)) g)
    (comboPermPairs (combinations (List.range n) f.valency) (revColexPerms f.valency)) [Nat.factorial f.valency, (combinations (List.range n) f.valency).length]
    (by
      rintro ⟨c, k⟩ hk
      rw [hmem] at hk
      obtain ⟨c1, c2, c3⟩ := (mem_combinations_range _ _ _).1 (List.mem_of_getElem? hk.1)
      obtain ⟨g, w, g1, g2, g3, g4⟩ := member_long hf hc ((mem_revColexPerms _ _).1 (List.mem_of_getElem? hk.2)) c3 (c1.imp fun h => Nat.ne_of_lt h)
      exact ⟨g, g1, w, g2, g3, g4⟩)
    (by
      rw [hpr]
      unfold comboPermPairs
      rw [length_flatMap_const _ _ (Nat.factorial f.valency) (by intro x _; rw [List.length_map, List.length_zipIdx, length_revColexPerms]), List.length_zipIdx, hC, Nat.mul_comm])
    (by
      intro x hx
      rw [hpr] at hx
      have hC0 : 0 < Nat.choose n f.valency := by
        rcases Nat.eq_zero_or_pos (Nat.choose n f.valency) with h | h
        · rw [h] at hx; simp at hx
        · exact h
      have a1 : x % Nat.choose n f.valency < (combinations (List.range n) f.valency).length := by rw [hC]; exact Nat.mod_lt _ hC0
      have a2 : x / Nat.choose n f.valency < (revColexPerms f.valency).length := by
        rw [length_revColexPerms]; exact Nat.div_lt_of_lt_mul (by rwa [Nat.mul_comm])
      refine ⟨((_, x % Nat.choose n f.valency), (_, x / Nat.choose n f.valency)), (hmem _ _).2 ⟨List.getElem?_eq_getElem a1, List.getElem?_eq_getElem a2⟩, ?_⟩
      rw [code_two, hC]
      exact Nat.div_add_mod' x _)
  rw [hpr] at h3
  refine ⟨q, lab, ?_, h3, ?_⟩
  · unfold Boolf.ecFactionLong
    simp only [bind, Except.bind, pure, Except.pure]
    rw [h1]
    simp only
    rw [h2, hC]
  · intro k s c co hk hc
    have := h4 ((co, c), (s, k)) ((hmem _ _).2 ⟨hc, hk⟩)
    simp only [code_two, hC] at this
    exact this

end Verif.BF
