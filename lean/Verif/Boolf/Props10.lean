import Verif.Boolf.Model4
import Verif.Boolf.Props9

/-!
# Properties C76 (filtrates) and C77 (pairs of atoms)
-/

namespace Verif.BF
open Verif.Py Verif.BV Verif.P Verif.W
open Verif.A hiding Mat

/-! ### The filtrated table -/

theorem filtrateLoop_spec (v : List Bool) (l : List (Nat × Nat)) (small : List Bool) (h1 : ∀ p ∈ l, p.1 < small.length) (h2 : ∀ p ∈ l, p.2 < v.length) :
    ∃ r, filtrateLoop ⟨v⟩ l small = .ok r ∧ r.length = small.length ∧
      ∀ m, r.getD m false = true ↔ small.getD m false = true ∨ ∃ p ∈ l, p.1 = m ∧ v.getD p.2 false = true := by
  induction l generalizing small with
  | nil => exact ⟨small, rfl, rfl, by simp⟩
  | cons p l ih =>
    obtain ⟨s, b⟩ := p
    have hs : s < small.length := h1 (s, b) (by simp)
    have hb : b < v.length := h2 (s, b) (by simp)
    have hg : (⟨v⟩ : Binv).getItem b = .ok v[b] := by
      unfold Binv.getItem
      rw [List.getElem?_eq_getElem hb]
    obtain ⟨r, r1, r2, r3⟩ := ih (small.set s (small[s] || v[b])) (fun q hq => by rw [List.length_set]; exact h1 q (by simp [hq]))
      (fun q hq => h2 q (by simp [hq]))
    refine ⟨r, ?_, by rw [r2, List.length_set], fun m => ?_⟩
    · unfold filtrateLoop
      rw [List.getElem?_eq_getElem hs, hg]
      exact r1
    · rw [r3]
      have e1 : v.getD b false = v[b] := by rw [List.getD_eq_getElem?_getD, List.getElem?_eq_getElem hb]; rfl
      have e2 : (small.set s (small[s] || v[b])).getD m false = if s = m then small[s] || v[b] else small.getD m false := by
        rw [List.getD_eq_getElem?_getD, List.getElem?_set]
        by_cases hm : s = m
        · simp [hm, hm ▸ hs]
        · simp [hm, List.getD_eq_getElem?_getD]
      rw [e2]
      by_cases hm : s = m
      · subst hm
        have e3 : small.getD s false = small[s] := by rw [List.getD_eq_getElem?_getD, List.getElem?_eq_getElem hs]; rfl
        rw [if_pos rfl, e3]
        simp only [Bool.or_eq_true, List.mem_cons]
        constructor
        · rintro ((h | h) | ⟨q, h, h'⟩)
          · exact Or.inl h
          · exact Or.inr ⟨(s, b), Or.inl rfl, rfl, e1.trans h⟩
          · exact Or.inr ⟨q, Or.inr h, h'⟩
        · rintro (h | ⟨q, rfl | h, h'⟩)
          · exact Or.inl (Or.inl h)
          · exact Or.inl (Or.inr (e1 ▸ h'.2))
          · exact Or.inr ⟨q, h, h'⟩
      · rw [if_neg hm]
        constructor
        · rintro (h | ⟨q, h, h'⟩)
          · exact Or.inl h
          · exact Or.inr ⟨q, by simp [h], h'⟩
        · rintro (h | ⟨q, h, h'⟩)
          · exact Or.inl h
          · rcases List.mem_cons.1 h with rfl | h
            · exact absurd h'.1 hm
            · exact Or.inr ⟨q, h, h'⟩

theorem filtrate_table {f : Boolf} (hf : Sound f) {S : List Nat} (hsub : ∀ x ∈ S, x ∈ f.atomvals) :
    ∃ r : List Bool, f.filtratedBoolf (S.map Int.ofNat) = newTT (.list (r.map fun b => (b.toNat : Int))) (some (S.map Int.ofNat)) ∧
      r.length = 2 ^ S.length ∧ ∀ m, r.getD m false = true ↔ ∃ a', f.eval a' = true ∧ valB (S.map a') = m := by
  have hlen : f.root.vector.length = 2 ^ f.valency := by rw [hf.val]; exact hf.len
  have hk1 : (S.map Int.ofNat).mapM (fun a => indexOf f.atomvals a.toNat) = .ok (S.map f.atomvals.idxOf) := by
    apply mapM_except_map
    intro x hx
    unfold indexOf
    rw [show (Int.ofNat x).toNat = x from rfl, if_pos (hsub x hx)]
  have hk2 : (S.map f.atomvals.idxOf).mapM (fun k : Nat => makeAtompattern k f.valency) = .ok (S.map fun x => atomB f.valency (f.atomvals.idxOf x)) := by
    apply mapM_except_map
    intro x hx
    apply makeAtompattern_nat
    rw [hf.val]
    exact List.idxOf_lt_length_of_mem (hsub x hx)
  have hk3 : (List.range (2 ^ f.valency)).mapM (fun n => (do
      return (← ofBools ((S.map fun x => atomB f.valency (f.atomvals.idxOf x)).map fun p => p.vector.getD n false)).intval : Except Err Nat)) =
      .ok ((List.range (2 ^ f.valency)).map fun n => valB (S.map fun x => n.testBit (f.atomvals.idxOf x))) := by
    have := mapM_except_map (fun n => (do
      return (← ofBools ((S.map fun x => atomB f.valency (f.atomvals.idxOf x)).map fun p => p.vector.getD n false)).intval : Except Err Nat)) id
      (fun n => valB (S.map fun x => n.testBit (f.atomvals.idxOf x))) (List.range (2 ^ f.valency)) (fun n hn => by
        simp only [id, ofBools_eq, bind, Except.bind, pure, Except.pure, intval_eq, List.map_map]
        congr 2
        apply List.map_congr_left
        intro x _
        simp only [Function.comp, atomB]
        rw [List.getD_eq_getElem?_getD, List.getElem?_map, List.getElem?_range (List.mem_range.1 hn)]; rfl)
    rwa [List.map_id] at this
  set proj : Nat → Nat := fun n => valB (S.map fun x => n.testBit (f.atomvals.idxOf x)) with hproj
  have hz : ∀ p : Nat × Nat, p ∈ ((List.range (2 ^ f.valency)).map proj).zipIdx ↔ p.2 < 2 ^ f.valency ∧ proj p.2 = p.1 := by
    rintro ⟨m, n⟩
    rw [List.mem_zipIdx_iff_getElem?, List.getElem?_map]
    by_cases h : n < 2 ^ f.valency
    · rw [List.getElem?_range h]; simp [h]
    · rw [List.getElem?_eq_none (by simpa using h)]; simp [h]
  obtain ⟨r, r1, r2, r3⟩ := filtrateLoop_spec f.root.vector ((List.range (2 ^ f.valency)).map proj).zipIdx (List.replicate (2 ^ S.length) false)
    (fun p hp => by
      rw [← ((hz p).1 hp).2, List.length_replicate]
      have := valB_map_lt S (fun x => p.2.testBit (f.atomvals.idxOf x))
      exact this)
    (fun p hp => by rw [hlen]; exact ((hz p).1 hp).1)
  have hr : r.length = 2 ^ S.length := by rw [r2, List.length_replicate]
  refine ⟨r, ?_, hr, fun m => ?_⟩
  · unfold Boolf.filtratedBoolf
    rw [if_pos (by
      rw [List.all_eq_true]
      intro z hz
      obtain ⟨x, hx, rfl⟩ := List.mem_map.1 hz
      simpa using hsub x hx)]
    simp only [bind, Except.bind] at hk3 ⊢
    rw [hk1]
    simp only
    rw [hk2]
    simp only
    rw [hk3]
    simp only
    rw [List.length_map, r1]
  · rw [r3]
    have hrep : ∀ m, (List.replicate (2 ^ S.length) false).getD m false = false := by
      intro m
      rw [List.getD_eq_getElem?_getD, List.getElem?_replicate]
      split <;> rfl
    rw [hrep]
    simp only [Bool.false_eq_true, false_or]
    constructor
    · rintro ⟨⟨m, n⟩, h1, rfl, h3⟩
      have h4 := (hz _).1 h1
      obtain ⟨a', ha'⟩ := exists_assign hf.nodup (y := n) (by rw [← hf.val]; exact h4.1)
      refine ⟨a', by unfold Boolf.eval; rw [ha']; exact h3, ?_⟩
      rw [← h4.2, hproj]
      simp only
      congr 1
      apply List.map_congr_left
      intro x hx
      rw [← ha', testBit_valB_map, List.getElem?_eq_getElem (List.idxOf_lt_length_of_mem (hsub x hx))]
      simp
    · rintro ⟨a', h1, rfl⟩
      refine ⟨(valB (S.map a'), valB (f.atomvals.map a')), (hz _).2 ⟨?_, ?_⟩, rfl, h1⟩
      · rw [hf.val]; exact valB_map_lt _ _
      · rw [hproj]
        simp only
        congr 1
        apply List.map_congr_left
        intro x hx
        rw [testBit_valB_map, List.getElem?_eq_getElem (List.idxOf_lt_length_of_mem (hsub x hx))]
        simp

theorem filtrate_spec {f : Boolf} (hf : Sound f) {S L : List Nat} (hS : S.Nodup) (hsub : ∀ x ∈ S, x ∈ f.atomvals) (hL : ReadOrder S L) :
    ∃ g, f.filtratedBoolf (S.map Int.ofNat) = .ok g ∧ Canon g ∧ Reach g ∧ ∀ a, g.eval a = true ↔ ∃ a', f.eval a' = true ∧ S.map a' = L.map a := by
  obtain ⟨r, r1, hr, r3⟩ := filtrate_table hf hsub
  obtain ⟨g, g1, g2, g3⟩ := ttDeflated_some (b := ⟨r⟩) (A := S.map Int.ofNat) (L := L) (hS.map (fun x y hxy => by simpa using hxy)) (by simp)
    (by simpa [Binv.length] using hr) (by rwa [toNat_map_ofNat])
  have hnew : newTT (.list (r.map fun b => (b.toNat : Int))) (some (S.map Int.ofNat)) = .ok g := by
    unfold newTT ttBinv
    simp only [bind, Except.bind]
    rw [mk_list]
    exact g1
  refine ⟨g, r1.trans hnew, g2, reach_newTT hnew, fun a => ?_⟩
  rw [g3]
  show r.getD _ false = true ↔ _
  rw [r3]
  constructor
  · rintro ⟨a', h1, h2⟩
    exact ⟨a', h1, valB_inj (by simp [hL.1]) h2⟩
  · rintro ⟨a', h1, h2⟩
    exact ⟨a', h1, by rw [h2]⟩

theorem filtrate_asc {f : Boolf} (hf : Sound f) {S : List Nat} (hS : S.Pairwise (· < ·)) (hsub : ∀ x ∈ S, x ∈ f.atomvals) :
    ∃ g, f.filtratedBoolf (S.map Int.ofNat) = .ok g ∧ Canon g ∧ Reach g ∧ ∀ a, g.eval a = true ↔ ∃ a', f.eval a' = true ∧ ∀ x ∈ S, a' x = a x := by
  have hnd : S.Nodup := hS.imp (fun h => Nat.ne_of_lt h)
  obtain ⟨g, g1, g2, g3, g4⟩ := filtrate_spec hf hnd hsub (readOrder_sorted hnd (sorted_eq_self hS).symm)
  exact ⟨g, g1, g2, g3, fun a => by rw [g4]; simp only [List.map_inj_left]⟩

theorem exists_key {f : Boolf} (hf : Sound f) (a : Nat → Bool) : ∃ key : Nat, f.eval key.testBit = f.eval a ∧ ∀ x ∈ f.atomvals, key.testBit x = a x := by
  have h : ∀ x ∈ f.atomvals, (valB ((List.range f.adicity).map a)).testBit x = a x := by
    intro x hx
    rw [testBit_valB_map, List.getElem?_range (hf.adic_lt hx)]; rfl
  exact ⟨_, Boolf.eval_congr h, h⟩

theorem getItem_true {f : Boolf} (hf : Sound f) (key : Nat) : f.getItem key = .ok true ↔ f.eval key.testBit = true := by
  rw [getItem_eq hf]; exact ⟨fun h => Except.ok.inj h, fun h => by rw [h]⟩

/-! ## C76 -/

/-- **C76.** The filtrate for an ascending list of the function's atoms is a function of these atoms.  It is true at a key iff the function is true at
some key with the same digits at these atoms. -/
theorem C76_filtrate (f : Boolf) (hf : Obj f) (S : List Nat) (hS : S.Pairwise (· < ·)) (hsub : ∀ x ∈ S, x ∈ f.atomvals) :
    ∃ g, f.filtratedBoolf (S.map Int.ofNat) = .ok g ∧ Reach g ∧ (∀ x ∈ g.atomvals, x ∈ S) ∧
      ∀ key : Nat, g.getItem key = .ok true ↔ ∃ key' : Nat, f.getItem key' = .ok true ∧ ∀ x ∈ S, key'.testBit x = key.testBit x := by
  have h := hf.good.toSound
  obtain ⟨g, g1, g2, g3, g4⟩ := filtrate_asc h hS hsub
  refine ⟨g, g1, g3, fun x hx => ?_, fun key => ?_⟩
  · by_contra hc
    obtain ⟨a, ha⟩ := (g2.mem_iff x).1 hx
    apply ha
    rw [Bool.eq_iff_iff, g4, g4]
    have : ∀ b, ∀ y ∈ S, upd a x b y = a y := fun b y hy => by unfold upd; rw [if_neg (fun e : y = x => hc (e ▸ hy))]
    constructor
    · rintro ⟨a', h1, h2⟩
      exact ⟨a', h1, fun y hy => by rw [h2 y hy, this _ y hy, this _ y hy]⟩
    · rintro ⟨a', h1, h2⟩
      exact ⟨a', h1, fun y hy => by rw [h2 y hy, this _ y hy, this _ y hy]⟩
  · rw [getItem_true g2.toSound, g4]
    constructor
    · rintro ⟨a', h1, h2⟩
      obtain ⟨key', k1, k2⟩ := exists_key h a'
      exact ⟨key', (getItem_true h key').2 (k1.trans h1), fun x hx => (k2 x (hsub x hx)).trans (h2 x hx)⟩
    · rintro ⟨key', h1, h2⟩
      exact ⟨key'.testBit, (getItem_true h key').1 h1, h2⟩

/-- three atoms: `0 and 1`, or `2` -/
theorem example_three : ∃ f, newTT (.list [0, 0, 0, 1, 1, 1, 1, 1]) = .ok f ∧ Reach f ∧ f.atomvals = [0, 1, 2] := by
  have h : newTT (.list [0, 0, 0, 1, 1, 1, 1, 1]) =
      .ok { atomvals := [0, 1, 2], root := ⟨[false, false, false, true, true, true, true, true]⟩, adicity := 3, valency := 3 } := by decide
  exact ⟨_, h, reach_newTT h, rfl⟩

example : ∃ f, Obj f ∧ ([1, 2] : List Nat).Pairwise (· < ·) ∧ ∀ x ∈ [1, 2], x ∈ f.atomvals := by
  obtain ⟨f, _, h2, h3⟩ := example_three
  exact ⟨f, h2.obj, by decide, by rw [h3]; decide⟩

/-- **C76.** A list of atoms in any order: the constructor takes digit `k` for the atom `L[k]`, where the atom of rank `k` stands at place `j` of the given
list iff `L[k]` is the atom of rank `j`. -/
theorem C76_any_order (f : Boolf) (hf : Obj f) (S L : List Nat) (hS : S.Nodup) (hsub : ∀ x ∈ S, x ∈ f.atomvals) (hL : ReadOrder S L) :
    ∃ g, f.filtratedBoolf (S.map Int.ofNat) = .ok g ∧ Reach g ∧
      ∀ key : Nat, g.getItem key = .ok true ↔ ∃ key' : Nat, f.getItem key' = .ok true ∧
        ∀ (k x y : Nat), S[k]? = some x → L[k]? = some y → key'.testBit x = key.testBit y := by
  have h := hf.good.toSound
  obtain ⟨g, g1, g2, g3, g4⟩ := filtrate_spec h hS hsub hL
  have hiff : ∀ a a' : Nat → Bool, S.map a' = L.map a ↔ ∀ (k x y : Nat), S[k]? = some x → L[k]? = some y → a' x = a y := by
    intro a a'
    constructor
    · intro e k x y hx hy
      have := congrArg (fun l => l[k]?) e
      simpa [hx, hy] using this
    · intro e
      apply List.ext_getElem (by simp [hL.1])
      intro k h1 h2
      rw [List.getElem_map, List.getElem_map]
      rw [List.length_map] at h1 h2
      exact e k _ _ (List.getElem?_eq_getElem h1) (List.getElem?_eq_getElem h2)
  refine ⟨g, g1, g3, fun key => ?_⟩
  rw [getItem_true g2.toSound, g4]
  constructor
  · rintro ⟨a', h1, h2⟩
    obtain ⟨key', k1, k2⟩ := exists_key h a'
    exact ⟨key', (getItem_true h key').2 (k1.trans h1), fun k x y hx hy =>
      (k2 x (hsub x (List.mem_of_getElem? hx))).trans ((hiff _ _).1 h2 k x y hx hy)⟩
  · rintro ⟨key', h1, h2⟩
    exact ⟨key'.testBit, (getItem_true h key').1 h1, (hiff _ _).2 h2⟩

example : ∃ f, Obj f ∧ ([2, 0, 1] : List Nat).Nodup ∧ (∀ x ∈ [2, 0, 1], x ∈ f.atomvals) ∧ ReadOrder [2, 0, 1] [1, 2, 0] := by
  obtain ⟨f, _, h2, h3⟩ := example_three
  exact ⟨f, h2.obj, by decide, by rw [h3]; decide, readOrder_201⟩

/-- **C76.** Numbers that are not atoms of the function, and repeated atoms, raise exceptions. -/
theorem C76_errors (f : Boolf) (hf : Obj f) (S : List Int) :
    ((∃ z ∈ S, ∀ x ∈ f.atomvals, z ≠ (x : Int)) → f.filtratedBoolf S = .error .atomvalsMismatch) ∧
    ((∀ z ∈ S, ∃ x ∈ f.atomvals, z = (x : Int)) → ¬ S.Nodup → f.filtratedBoolf S = .error .atomvalsNotUnique) := by
  refine ⟨?_, fun h hnd => ?_⟩
  · rintro ⟨z, hz, h⟩
    unfold Boolf.filtratedBoolf
    rw [if_neg]
    intro hc
    have := List.all_eq_true.1 hc z hz
    simp only [List.contains_eq_mem, List.mem_map, decide_eq_true_eq] at this
    obtain ⟨x, hx, rfl⟩ := this
    exact h x hx rfl
  · have e : S = (S.map Int.toNat).map Int.ofNat := by
      rw [List.map_map]
      conv_lhs => rw [← List.map_id S]
      apply List.map_congr_left
      intro z hz
      obtain ⟨x, _, rfl⟩ := h z hz
      rfl
    obtain ⟨r, r1, hr, -⟩ := filtrate_table hf.good.toSound (S := S.map Int.toNat) (fun y hy => by
      obtain ⟨z, hz, rfl⟩ := List.mem_map.1 hy
      obtain ⟨x, hx, rfl⟩ := h z hz
      exact hx)
    rw [← e] at r1
    rw [r1]
    unfold newTT
    simp only
    rw [ttBinv_list]
    simp only [bind, Except.bind, Bool.false_eq_true, if_false]
    unfold ttDeflated ttCheck
    simp only [bind, Except.bind]
    rw [if_neg (fun hc => hnd (dedup_length_iff.1 hc))]

example : ∃ f, Obj f ∧ (∃ z ∈ ([1, 3] : List Int), ∀ x ∈ f.atomvals, z ≠ (x : Int)) ∧ (∀ z ∈ ([1, 1] : List Int), ∃ x ∈ f.atomvals, z = (x : Int)) ∧
    ¬ ([1, 1] : List Int).Nodup := by
  obtain ⟨f, _, h2, h3⟩ := example_three
  exact ⟨f, h2.obj, by rw [h3]; decide, by rw [h3]; decide, by decide⟩

/-- **C76.** The filtrate for all atoms is the function itself, that for no atoms the constant that tells whether the function is ever true. -/
theorem C76_all_none (f : Boolf) (hf : Reach f) :
    f.filtratedBoolf (f.atomvals.map Int.ofNat) = .ok f ∧
    (f ≠ setConstant false → f.filtratedBoolf [] = .ok (setConstant true)) ∧
    (setConstant false).filtratedBoolf [] = .ok (setConstant false) := by
  have h := hf.canon
  have key : ∀ f : Boolf, Canon f → ∃ g, f.filtratedBoolf [] = .ok g ∧ Canon g ∧ ∀ a, g.eval a = true ↔ ∃ a', f.eval a' = true := by
    intro f hf
    obtain ⟨g, g1, g2, g3, g4⟩ := filtrate_asc hf.toSound (S := []) List.Pairwise.nil (by simp)
    exact ⟨g, g1, g2, fun a => by rw [g4]; simp⟩
  refine ⟨?_, fun hne => ?_, ?_⟩
  · obtain ⟨g, g1, g2, g3, g4⟩ := filtrate_asc h.toSound h.asc (fun x hx => hx)
    rw [g1, g2.ext h]
    intro a
    rw [Bool.eq_iff_iff, g4]
    constructor
    · rintro ⟨a', h1, h2⟩
      rw [← h1]
      exact (Boolf.eval_congr h2).symm
    · exact fun h1 => ⟨a, h1, fun _ _ => rfl⟩
  · obtain ⟨g, g1, g2, g3⟩ := key f h
    rw [g1, g2.ext (canon_const true)]
    intro a
    rw [eval_const, g3]
    by_contra hc
    push Not at hc
    apply hne
    apply h.ext (canon_const false)
    intro a
    rw [eval_const]
    exact Bool.eq_false_iff.2 (hc a)
  · obtain ⟨g, g1, g2, g3⟩ := key _ (canon_const false)
    rw [g1, g2.ext (canon_const false)]
    intro a
    rw [eval_const, Bool.eq_false_iff, Ne, g3]
    rintro ⟨a', h⟩
    rw [eval_const] at h
    cases h

example : ∃ f, Reach f ∧ f ≠ setConstant false := by
  obtain ⟨f, _, h2, h3⟩ := example_three
  exact ⟨f, h2, fun e => by rw [e] at h3; cases h3⟩

/-- **C76.** A filtrate of a filtrate is a filtrate of the function. -/
theorem C76_twice (f : Boolf) (hf : Obj f) (S T : List Nat) (hS : S.Pairwise (· < ·)) (hsub : ∀ x ∈ S, x ∈ f.atomvals) (g : Boolf)
    (hg : f.filtratedBoolf (S.map Int.ofNat) = .ok g) (hT : T.Pairwise (· < ·)) (hsub' : ∀ x ∈ T, x ∈ g.atomvals) :
    (∀ x ∈ T, x ∈ f.atomvals) ∧ g.filtratedBoolf (T.map Int.ofNat) = f.filtratedBoolf (T.map Int.ofNat) := by
  have h := hf.good.toSound
  obtain ⟨g', g1, g2, g3, _⟩ := C76_filtrate f hf S hS hsub
  obtain ⟨g'', g1', c, _, g4⟩ := filtrate_asc h hS hsub
  cases hg.symm.trans g1
  cases hg.symm.trans g1'
  have hTS : ∀ x ∈ T, x ∈ S := fun x hx => g3 x (hsub' x hx)
  have hTf : ∀ x ∈ T, x ∈ f.atomvals := fun x hx => hsub x (hTS x hx)
  refine ⟨hTf, ?_⟩
  obtain ⟨p, p1, p2, _, p4⟩ := filtrate_asc h hT hTf
  obtain ⟨q, q1, q2, _, q4⟩ := filtrate_asc c.toSound hT hsub'
  rw [p1, q1, q2.ext p2]
  intro a
  rw [Bool.eq_iff_iff, p4, q4]
  constructor
  · rintro ⟨a', h1, h2⟩
    obtain ⟨a'', h3, h4⟩ := (g4 a').1 h1
    exact ⟨a'', h3, fun x hx => (h4 x (hTS x hx)).trans (h2 x hx)⟩
  · rintro ⟨a', h1, h2⟩
    exact ⟨a', (g4 a').2 ⟨a', h1, fun _ _ => rfl⟩, h2⟩

example : ∃ f g, Obj f ∧ ([0, 1] : List Nat).Pairwise (· < ·) ∧ (∀ x ∈ [0, 1], x ∈ f.atomvals) ∧ f.filtratedBoolf (([0, 1] : List Nat).map Int.ofNat) = .ok g ∧
    ([1] : List Nat).Pairwise (· < ·) ∧ ∀ x ∈ [1], x ∈ g.atomvals := by
  have h : newTT (.list [0, 1, 1, 0, 0, 0, 1, 0]) =
      .ok { atomvals := [0, 1, 2], root := ⟨[false, true, true, false, false, false, true, false]⟩, adicity := 3, valency := 3 } := by decide
  have hr := reach_newTT h
  obtain ⟨g, g1, g2, g3, g4⟩ := filtrate_asc hr.canon.toSound (S := [0, 1]) (by decide) (by decide)
  refine ⟨_, g, hr.obj, by decide, by decide, g1, by decide, ?_⟩
  intro x hx
  rw [List.mem_singleton.1 hx, g2.mem_iff]
  refine ⟨fun _ => false, fun e => ?_⟩
  have h2 := (g4 (upd (fun _ => false) 1 true)).2 ⟨Nat.testBit 2, by decide, by decide⟩
  rw [← e] at h2
  obtain ⟨a', h3, h4⟩ := (g4 _).1 h2
  have e0 : a' 0 = false := h4 0 (by simp)
  have e1 : a' 1 = false := h4 1 (by simp)
  unfold Boolf.eval at h3
  simp only [List.map_cons, List.map_nil, e0, e1] at h3
  cases h : a' 2 <;> rw [h] at h3 <;> cases h3

/-- **C76.** A function with the atoms 0, 1, 2 whose filtrate for the list `[2, 0, 1]` of all its atoms is not the function. -/
theorem C76_wrong_order : ∃ f g, newTT (.list [0, 0, 0, 1, 0, 0, 0, 0]) = .ok f ∧ f.atomvals = [0, 1, 2] ∧ f.filtratedBoolf [2, 0, 1] = .ok g ∧ f ≠ g := by
  have h : newTT (.list [0, 0, 0, 1, 0, 0, 0, 0]) =
      .ok { atomvals := [0, 1, 2], root := ⟨[false, false, false, true, false, false, false, false]⟩, adicity := 3, valency := 3 } := by decide
  have hs := (reach_newTT h).canon.toSound
  obtain ⟨g, g1, g2, g3, g4⟩ := filtrate_spec hs (S := [2, 0, 1]) (L := [1, 2, 0]) (by decide) (by decide) readOrder_201
  refine ⟨_, g, h, rfl, g1, fun e => ?_⟩
  have := (g4 (Nat.testBit 5)).2 ⟨Nat.testBit 3, by decide, by decide⟩
  rw [← e] at this
  revert this
  decide

end Verif.BF
