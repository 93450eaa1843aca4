import Verif.Boolf.Props35

/-!
# C94: the equivalence class under negation of atoms (`ec_family`)
-/

namespace Verif.BF
open Verif.Py Verif.BV Verif.P Verif.W Verif.SP
open Verif.A hiding Mat

/-- Specification: a partition of `range(N)` whose blocks are the sets of numbers with the same value of `lab`, with this value as label. -/
structure Labelling (p : SetPart Boolf) (N : Nat) (lab : Nat → Boolf) : Prop where
  domain : p.domain = .finite ((List.range N).map Int.ofNat)
  label : ∀ i : Nat, i < N → p.getLabelFromElement i = some (lab i)
  same : ∀ i j : Nat, i < N → j < N → i ≠ j → (p.pairInSameBlock i j = true ↔ lab i = lab j)
  block : ∀ g B, p.getBlockFromLabel g = some B ↔ B ≠ [] ∧ B.Pairwise (· < ·) ∧ ∀ x : Int, x ∈ B ↔ ∃ i : Nat, i < N ∧ x = i ∧ lab i = g
  labels : ∀ g, g ∈ p.blockLabels.map Prod.snd ↔ ∃ i, i < N ∧ lab i = g
  nodup : (p.blockLabels.map Prod.snd).Nodup

theorem labelElements_eq {α : Type} (element : α → Nat) (label : α → Except Err Boolf) (lab : Nat → Boolf) (items : List α)
    (h : ∀ i ∈ items, label i = .ok (lab (element i))) (p q : SetPart Boolf)
    (hq : p.addLabels (items.map fun i => ((element i : Int), lab (element i))) = (.ok (), q)) : labelElements element label items p = .ok q := by
  induction items generalizing p with
  | nil => simp only [List.map_nil, SetPart.addLabels, Prod.mk.injEq] at hq; rw [labelElements, hq.2]
  | cons i items ih =>
    unfold labelElements
    rw [h i (by simp)]
    simp only [bind, Except.bind]
    simp only [List.map_cons, SetPart.addLabels] at hq
    cases ha : p.addLabelToElement (element i : Int) (lab (element i)) with
    | mk r p' =>
      rw [ha] at hq
      cases r with
      | ok _ => exact ih (fun j hj => h j (by simp [hj])) _ hq
      | error e => simp at hq

theorem labelElements_spec {α : Type} (element : α → Nat) (label : α → Except Err Boolf) (P : α → Boolf → Prop) (items : List α) (dims : List Nat)
    (hl : ∀ i ∈ items, ∃ g, label i = .ok g ∧ P i g) (he : ∀ n, n < dims.prod ↔ ∃ i ∈ items, element i = n) (hn : (items.map element).Nodup) :
    ∃ p q lab, newPart [] (domainOf dims) = .ok p ∧ labelElements element label items p = .ok q ∧ Labelling q dims.prod lab ∧
      ∀ i ∈ items, label i = .ok (lab (element i)) ∧ P i (lab (element i)) := by
  classical
  let lab : Nat → Boolf := fun n => if h : ∃ i ∈ items, element i = n then (hl h.choose h.choose_spec.1).choose else setConstant false
  have hlab : ∀ i ∈ items, label i = .ok (lab (element i)) ∧ P i (lab (element i)) := by
    intro i hi
    have h : ∃ j ∈ items, element j = element i := ⟨i, hi, rfl⟩
    have hc : h.choose = i := List.inj_on_of_nodup_map hn h.choose_spec.1 hi h.choose_spec.2
    have := (hl h.choose h.choose_spec.1).choose_spec
    simp only [lab]
    rw [dif_pos h]
    generalize hx : (hl h.choose h.choose_spec.1).choose = g at this
    rw [hc] at this
    exact this
  obtain ⟨p, hp⟩ : ∃ p : SetPart Boolf, newPart [] (domainOf dims) = .ok p := ⟨_, rfl⟩
  have hmem : ∀ (x : Int) (l : Boolf), (x, l) ∈ (items.map fun i => ((element i : Int), lab (element i))) ↔ ∃ n : Nat, n < dims.prod ∧ x = n ∧ lab n = l := by
    intro x l
    rw [List.mem_map]
    constructor
    · rintro ⟨i, hi, h⟩
      rw [Prod.mk.injEq] at h
      obtain ⟨rfl, rfl⟩ := h
      exact ⟨element i, (he _).2 ⟨i, hi, rfl⟩, rfl, rfl⟩
    · rintro ⟨n, hn, rfl, rfl⟩
      obtain ⟨i, hi, rfl⟩ := (he n).1 hn
      exact ⟨i, hi, rfl⟩
  obtain ⟨q, q1, _, _, q4, q5, q6, q7, q8, q9⟩ := C44_label_all ((List.range dims.prod).map Int.ofNat) (items.map fun i => ((element i : Int), lab (element i)))
    (by
      intro x l h
      obtain ⟨n, hn, rfl, _⟩ := (hmem x l).1 h
      exact List.mem_map.2 ⟨n, List.mem_range.2 hn, rfl⟩)
    (by
      rw [List.map_map, show (Prod.fst ∘ fun i => ((element i : Int), lab (element i))) = Int.ofNat ∘ element from rfl, ← List.map_map]
      exact hn.map (fun a b h => Int.ofNat.inj h)) p hp
  refine ⟨p, q, lab, hp, labelElements_eq element label lab items (fun i hi => (hlab i hi).1) p q q1, ⟨q4, ?_, ?_, ?_, ?_, q9⟩, hlab⟩
  · intro i hi
    exact (q6 _ _).2 ((hmem _ _).2 ⟨i, hi, rfl, rfl⟩)
  · intro i j hi hj hij
    rw [q5 i j (by simpa using hij)]
    constructor
    · rintro ⟨l, h1, h2⟩
      obtain ⟨a, _, a1, a2⟩ := (hmem _ _).1 h1
      obtain ⟨b, _, b1, b2⟩ := (hmem _ _).1 h2
      rw [Int.natCast_inj] at a1 b1
      rw [a1, b1, a2, b2]
    · intro h
      exact ⟨lab i, (hmem _ _).2 ⟨i, hi, rfl, rfl⟩, (hmem _ _).2 ⟨j, hj, rfl, h.symm⟩⟩
  · intro g B
    rw [q7]
    simp only [hmem]
  · intro g
    rw [q8]
    simp only [hmem]
    exact ⟨fun ⟨x, n, h1, _, h3⟩ => ⟨n, h1, h3⟩, fun ⟨n, h1, h3⟩ => ⟨n, n, h1, rfl, h3⟩⟩

/-! ## the negations -/

theorem logicAbs_natCast (n : Nat) : logicAbs (n : Int) = n := by
  unfold logicAbs
  rw [if_neg (by omega)]

theorem negate_which (A : List Nat) (c : Nat → Bool) (hA : A.Nodup) (w : List Int)
    (hw : ∀ x : Int, x ∈ w ↔ ∃ k, ∃ y : Nat, A[k]? = some y ∧ x = y ∧ c k = true) :
    logicNegateVector (A.map Int.ofNat) none (some w) = .ok (A.map fun (x : Nat) => if c (A.idxOf x) then inv x else (x : Int)) := by
  have habs : logicAbsVector (A.map Int.ofNat) = A.map Int.ofNat := by
    unfold logicAbsVector
    rw [List.map_map]
    exact List.map_congr_left fun x _ => logicAbs_natCast x
  unfold logicNegateVector
  simp only
  rw [if_pos, habs, if_pos]
  · unfold zipBy
    rw [List.zipWith_self, List.map_map]
    congr 1
    apply List.map_congr_left
    intro x hx
    simp only [Function.comp]
    have : w.contains (Int.ofNat x) = c (A.idxOf x) := by
      rw [Bool.eq_iff_iff, List.contains_iff_mem, hw]
      constructor
      · rintro ⟨k, y, h1, h2, h3⟩
        cases h2
        rw [show A.idxOf x = k from (List.getElem?_eq_some_iff.1 h1).2 ▸ hA.idxOf_getElem k (List.getElem?_eq_some_iff.1 h1).1]
        exact h3
      · intro h
        have := List.idxOf_lt_length_of_mem hx
        exact ⟨A.idxOf x, x, by rw [List.getElem?_eq_getElem this, List.getElem_idxOf], rfl, h⟩
    rw [this]
    rfl
  · rw [List.all_eq_true]
    intro x hx
    obtain ⟨k, y, h1, rfl, _⟩ := (hw x).1 hx
    rw [List.contains_iff_mem]
    exact List.mem_map.2 ⟨y, List.mem_of_getElem? h1, rfl⟩
  · rw [List.all_eq_true]
    intro x hx
    obtain ⟨k, y, h1, rfl, _⟩ := (hw x).1 hx
    simp

theorem familyMember_spec {f : Boolf} (hf : Good f) (hc : f.isConstant = false) {i : Nat} (hi : i < 2 ^ f.valency) :
    ∃ g, f.familyMember i = .ok g ∧ Canon g ∧ ∀ a, g.eval a = f.eval fun x => a x ^^ i.testBit (f.atomvals.idxOf x) := by
  have hne : f.atomvals ≠ [] := fun h => by rw [hf.const.2 h] at hc; cases hc
  have hv : 0 < f.valency := by rw [hf.val]; exact List.length_pos_iff.2 hne
  obtain ⟨b, b1, b2, b3⟩ := (C26_intval_length i f.valency hv).1 hi
  have hx : ∀ k, k ∈ b.exposet ↔ i.testBit k = true := by
    intro k
    rw [mem_exposet, ← b3, intval_eq, testBit_valB]
    cases h : b.vector[k]? <;> simp [h]
  have hm : b.exposet.mapM (entryAt (f.atomvals.map Int.ofNat)) = .ok (b.exposet.map fun k => Int.ofNat (f.atomvals.getD k 0)) := by
    apply mapM_ok
    intro k hk
    have hkl : k < f.atomvals.length := by
      rw [hx] at hk
      by_contra h
      rw [Nat.testBit_lt_two_pow (lt_of_lt_of_le hi (Nat.pow_le_pow_right (by omega) (by rw [hf.val]; omega)))] at hk
      cases hk
    unfold entryAt
    rw [List.getElem?_map, List.getD_eq_getElem?_getD, List.getElem?_eq_getElem hkl]
    rfl
  have hneg := negate_which f.atomvals (fun k => i.testBit k) hf.toSound.nodup (b.exposet.map fun k => Int.ofNat (f.atomvals.getD k 0)) (by
    intro x
    rw [List.mem_map]
    constructor
    · rintro ⟨k, hk, rfl⟩
      rw [hx] at hk
      have hkl : k < f.atomvals.length := by
        by_contra h
        rw [Nat.testBit_lt_two_pow (lt_of_lt_of_le hi (Nat.pow_le_pow_right (by omega) (by rw [hf.val]; omega)))] at hk
        cases hk
      exact ⟨k, f.atomvals[k], List.getElem?_eq_getElem hkl, by rw [List.getD_eq_getElem?_getD, List.getElem?_eq_getElem hkl]; rfl, hk⟩
    · rintro ⟨k, y, h1, rfl, h3⟩
      exact ⟨k, (hx k).2 h3, by rw [List.getD_eq_getElem?_getD, h1]; rfl⟩)
  have habs : ∀ x : Nat, (logicAbs (if i.testBit (f.atomvals.idxOf x) then inv x else (x : Int))).toNat = x := by
    intro x
    split
    · unfold logicAbs inv; rw [if_pos (by omega)]; omega
    · rw [logicAbs_natCast]; rfl
  obtain ⟨g, g1, g2, g3⟩ := apply_value hf (w := fun x => if i.testBit (f.atomvals.idxOf x) then inv x else (x : Int))
    (fun x y h => by rwa [habs, habs] at h) hc
  refine ⟨g, ?_, g2, fun a => ?_⟩
  · unfold Boolf.familyMember
    rw [show (BV.mk { intval := some (i : Int), length := some (f.valency : Int) }) = .ok b from b1]
    simp only [bind, Except.bind]
    rw [hm]
    simp only
    rw [hneg]
    exact g1
  · rw [g3]
    congr 1
    funext x
    unfold lit
    rw [habs]
    congr 1
    cases h : i.testBit (f.atomvals.idxOf x)
    · simp
    · unfold inv; simp; omega

/-- Specification: `g` is `f` with some of the atoms negated. -/
def Negated (f g : Boolf) : Prop := ∃ m : Nat, ∀ key : Nat, g.getItem key = f.getItem (key ^^^ m)

theorem xor_testBit (key m : Nat) : (key ^^^ m).testBit = fun x => (key.testBit x ^^ m.testBit x) := funext fun _ => Nat.testBit_xor ..

/-- the bits of `i` at the places of the atoms of `f` -/
def Spread (f : Boolf) (i m : Nat) : Prop := ∀ k x, f.atomvals[k]? = some x → m.testBit x = i.testBit k

theorem spread_idx {f : Boolf} {i m : Nat} (h : Spread f i m) : ∀ x ∈ f.atomvals, m.testBit x = i.testBit (f.atomvals.idxOf x) := by
  intro x hx
  have := List.idxOf_lt_length_of_mem hx
  exact h _ x (by rw [List.getElem?_eq_getElem this, List.getElem_idxOf])

theorem exists_spread {f : Boolf} (hf : Sound f) (i : Nat) : ∃ m, Spread f i m := by
  obtain ⟨m, _, h⟩ := exists_key hf fun x => i.testBit (f.atomvals.idxOf x)
  refine ⟨m, fun k x hk => ?_⟩
  obtain ⟨hl, rfl⟩ := List.getElem?_eq_some_iff.1 hk
  rw [h _ (List.getElem_mem hl), hf.nodup.idxOf_getElem k hl]

theorem exists_unspread {f : Boolf} (hf : Sound f) (m : Nat) : ∃ i, i < 2 ^ f.valency ∧ Spread f i m := by
  refine ⟨valB (f.atomvals.map m.testBit), ?_, ?_⟩
  · rw [hf.val]; exact valB_map_lt _ _
  · intro k x hk
    rw [testBit_valB_map, hk]
    rfl

theorem ecFamily_spec {f : Boolf} (hf : Good f) (hc : f.isConstant = false) (ha : f.adicity ≤ 10) :
    ∃ q lab, f.ecFamily = .ok { part := q, dims := [2 ^ f.valency] } ∧ Labelling q (2 ^ f.valency) lab ∧
      ∀ i, i < 2 ^ f.valency → Canon (lab i) ∧ ∀ a, (lab i).eval a = f.eval fun x => a x ^^ i.testBit (f.atomvals.idxOf x) := by
  obtain ⟨p, q, lab, h1, h2, h3, h4⟩ := labelElements_spec id f.familyMember
    (fun i g => Canon g ∧ ∀ a, g.eval a = f.eval fun x => a x ^^ i.testBit (f.atomvals.idxOf x)) (List.range (2 ^ f.valency)) [2 ^ f.valency]
    (fun i hi => familyMember_spec hf hc (List.mem_range.1 hi)) (by intro n; simp) (by simpa using List.nodup_range)
  rw [List.prod_singleton] at h3
  refine ⟨q, lab, ?_, h3, fun i hi => (h4 i (List.mem_range.2 hi)).2⟩
  unfold Boolf.ecFamily
  rw [if_neg (by rw [hc]; decide), if_pos ha]
  simp only [bind, Except.bind, pure, Except.pure]
  rw [h1]
  simp only
  rw [h2]

theorem label_one (f : Boolf) (dims : List Nat) (hd : dims.prod = 1) :
    ∃ p q : SetPart Boolf, newPart [] (domainOf dims) = .ok p ∧ labelElements id (fun _ => .ok f) [0] p = .ok q ∧ Labelling q 1 (fun _ => f) := by
  obtain ⟨p, q, lab, h1, h2, h3, h4⟩ := labelElements_spec id (fun _ => .ok f) (fun _ g => g = f) [0] dims
    (fun i hi => ⟨f, rfl, rfl⟩) (by intro n; rw [hd]; simp; omega) (by simp)
  rw [hd] at h3
  have h0 : lab 0 = f := (h4 0 (by simp)).2
  have hlab : ∀ i, i < 1 → lab i = f := by intro i hi; rw [show i = 0 by omega]; exact h0
  refine ⟨p, q, h1, h2, ⟨h3.domain, ?_, ?_, ?_, ?_, h3.nodup⟩⟩
  · intro i hi; rw [h3.label i hi, hlab i hi]
  · intro i j hi hj hij; omega
  · intro g B
    rw [h3.block]
    refine and_congr Iff.rfl (and_congr Iff.rfl (forall_congr' fun x => iff_congr Iff.rfl (exists_congr fun i => ?_)))
    constructor
    · rintro ⟨a, b, c⟩; exact ⟨a, b, by rw [← hlab i a]; exact c⟩
    · rintro ⟨a, b, c⟩; exact ⟨a, b, by rw [hlab i a]; exact c⟩
  · intro g
    rw [h3.labels]
    constructor
    · rintro ⟨i, a, c⟩; exact ⟨i, a, by rw [← hlab i a]; exact c⟩
    · rintro ⟨i, a, c⟩; exact ⟨i, a, by rw [hlab i a]; exact c⟩

/-- **C94.** The result is a partition of `range(2 ** valency)`; the label of `i` is the function in which the atom at place `k` is negated iff `i` has a 1 at
place `k`, and two numbers are in the same block iff these functions are equal.  For a constant there is only the number 0.  Functions with more than ten
places are refused. -/
theorem C94_family (f : Boolf) (hf : Obj f) :
    (f.isConstant = true → ∃ E, f.ecFamily = .ok E ∧ E.dims = [1] ∧ Labelling E.part 1 (fun _ => f)) ∧
    (f.isConstant = false → f.adicity ≤ 10 → ∃ E lab, f.ecFamily = .ok E ∧ E.dims = [2 ^ f.valency] ∧ Labelling E.part (2 ^ f.valency) lab ∧
      ∀ i, i < 2 ^ f.valency → Reach (lab i) ∧ ∀ m, (∀ k x, f.atomvals[k]? = some x → m.testBit x = i.testBit k) →
        ∀ key : Nat, (lab i).getItem key = f.getItem (key ^^^ m)) ∧
    (f.isConstant = false → 10 < f.adicity → f.ecFamily = .error .argNotFeasible) := by
  refine ⟨fun hc => ?_, fun hc ha => ?_, fun hc ha => ?_⟩
  · obtain ⟨p, q, h1, h2, h3⟩ := label_one f [1] rfl
    refine ⟨{ part := q, dims := [1] }, ?_, rfl, h3⟩
    unfold Boolf.ecFamily
    rw [if_pos hc]
    simp only [bind, Except.bind, pure, Except.pure]
    rw [h1]
    simp only
    rw [h2]
  · obtain ⟨q, lab, h1, h2, h3⟩ := ecFamily_spec hf.good hc ha
    refine ⟨_, lab, h1, rfl, h2, fun i hi => ?_⟩
    obtain ⟨c1, c2⟩ := h3 i hi
    refine ⟨c1.reach, fun m hm key => ?_⟩
    rw [getItem_eq c1.toSound, getItem_eq hf.good.toSound, c2, xor_testBit]
    congr 1
    apply Boolf.eval_congr
    intro x hx
    rw [spread_idx hm x hx]
  · unfold Boolf.ecFamily
    rw [if_neg (by rw [hc]; decide), if_neg (by omega)]

/-- **C94.** The labels are exactly the functions that arise by negating some atoms. -/
theorem C94_members (f : Boolf) (hf : Reach f) (E : EcPart) (hE : f.ecFamily = .ok E) (g : Boolf) :
    g ∈ E.part.blockLabels.map Prod.snd ↔ Reach g ∧ Negated f g := by
  by_cases hc : f.isConstant = true
  · obtain ⟨E', h1, _, h3⟩ := (C94_family f hf.obj).1 hc
    rw [hE] at h1
    cases h1
    rw [h3.labels]
    constructor
    · rintro ⟨i, _, rfl⟩
      exact ⟨hf, 0, fun key => by simp⟩
    · rintro ⟨hg, m, hm⟩
      refine ⟨0, by omega, hf.canon.ext_key hg.canon fun key => ?_⟩
      rw [hm, getItem_eq hf.canon.toSound, getItem_eq hf.canon.toSound]
      congr 1
      apply Boolf.eval_congr
      rw [hf.obj.good.const.1 hc]
      simp
  · rw [Bool.not_eq_true] at hc
    by_cases ha : f.adicity ≤ 10
    · obtain ⟨E', lab, h1, _, h3, h4⟩ := (C94_family f hf.obj).2.1 hc ha
      rw [hE] at h1
      cases h1
      rw [h3.labels]
      constructor
      · rintro ⟨i, hi, rfl⟩
        obtain ⟨m, hm⟩ := exists_spread hf.canon.toSound i
        exact ⟨(h4 i hi).1, m, (h4 i hi).2 m hm⟩
      · rintro ⟨hg, m, hm⟩
        obtain ⟨i, hi, hs⟩ := exists_unspread hf.canon.toSound m
        refine ⟨i, hi, (h4 i hi).1.canon.ext_key hg.canon fun key => ?_⟩
        rw [hm, (h4 i hi).2 m hs]
    · rw [(C94_family f hf.obj).2.2 hc (by omega)] at hE
      cases hE

/-- **C94.** The block of 0 is a group with the bitwise exclusive or as operation, and the other blocks are its cosets. -/
theorem C94_cosets (f : Boolf) (hf : Obj f) (E : EcPart) (hE : f.ecFamily = .ok E) (i j : Nat) (hi : i < E.dims.prod) (hj : j < E.dims.prod) (hij : i ≠ j) :
    E.part.pairInSameBlock i j = true ↔ E.part.pairInSameBlock (i ^^^ j : Nat) (0 : Nat) = true := by
  by_cases hc : f.isConstant = true
  · obtain ⟨E', h1, h2, _⟩ := (C94_family f hf).1 hc
    rw [hE] at h1
    cases h1
    rw [h2] at hi hj
    simp at hi hj
    omega
  · rw [Bool.not_eq_true] at hc
    by_cases ha : f.adicity ≤ 10
    · obtain ⟨q, lab, h1, h2, h3⟩ := ecFamily_spec hf.good hc ha
      rw [hE] at h1
      cases h1
      simp only [List.prod_singleton] at hi hj
      have hx := Nat.xor_lt_two_pow hi hj
      have hne : i ^^^ j ≠ 0 := fun h => hij (Nat.xor_eq_zero_iff.1 h)
      rw [h2.same i j hi hj hij, h2.same (i ^^^ j) 0 hx (Nat.two_pow_pos _) hne]
      have hz : ∀ a, (lab 0).eval a = f.eval a := fun a => by rw [(h3 0 (Nat.two_pow_pos _)).2]; simp
      constructor
      · intro h
        apply (h3 _ hx).1.ext (h3 0 (Nat.two_pow_pos _)).1
        intro a
        rw [hz, (h3 _ hx).2]
        have h' := (h3 i hi).2 (fun x => a x ^^ j.testBit (f.atomvals.idxOf x))
        rw [h, (h3 j hj).2] at h'
        simp only [Bool.xor_assoc, Bool.xor_self, Bool.xor_false] at h'
        rw [h']
        apply Boolf.eval_congr
        intro x _
        rw [Nat.testBit_xor, Bool.xor_comm (i.testBit _)]
      · intro h
        apply (h3 i hi).1.ext (h3 j hj).1
        intro a
        rw [(h3 i hi).2, (h3 j hj).2]
        have h' := (h3 _ hx).2 (fun x => a x ^^ j.testBit (f.atomvals.idxOf x))
        rw [h, hz] at h'
        rw [h']
        apply Boolf.eval_congr
        intro x _
        rw [Nat.testBit_xor, Bool.xor_comm (i.testBit _), ← Bool.xor_assoc, Bool.xor_assoc (a x), Bool.xor_self, Bool.xor_false]
    · rw [(C94_family f hf).2.2 hc (by omega)] at hE
      cases hE

/-- **C94.** All members of a family have the same family. -/
theorem C94_closed (f g : Boolf) (hf : Reach f) (hg : Reach g) (h : Negated f g) (F G : EcPart) (hF : f.ecFamily = .ok F) (hG : g.ecFamily = .ok G)
    (k : Boolf) : k ∈ F.part.blockLabels.map Prod.snd ↔ k ∈ G.part.blockLabels.map Prod.snd := by
  rw [C94_members f hf F hF, C94_members g hg G hG]
  obtain ⟨m, hm⟩ := h
  refine and_congr Iff.rfl ⟨?_, ?_⟩
  · rintro ⟨n, hn⟩
    refine ⟨n ^^^ m, fun key => ?_⟩
    rw [hn, hm, Nat.xor_assoc, Nat.xor_assoc, Nat.xor_self, Nat.xor_zero]
  · rintro ⟨n, hn⟩
    refine ⟨n ^^^ m, fun key => ?_⟩
    rw [hn, hm, Nat.xor_assoc]

/-- The family of the exclusive or has two members, and two blocks with two numbers each. -/
example : ∃ f E, newTT (.str "0110".toList) none = .ok f ∧ Reach f ∧ f.ecFamily = .ok E ∧ E.part.pairInSameBlock 0 3 = true ∧
    E.part.pairInSameBlock 1 2 = true ∧ E.part.pairInSameBlock 0 1 = false ∧
    (E.part.getLabelFromElement 3).map (fun g => g.root.vector) = some [false, true, true, false] ∧ E.part.blockLabels.length = 2 := by
  obtain ⟨_, e1, e2⟩ := newTT_explicit "0110".toList [false, true, true, false] [0, 1] 2 (by decide) (by decide) (by decide) (by intro n; simp; omega)
    (by decide) (by decide)
  exact ⟨_, _, e1 (by decide), e2.reach, rfl, by decide +kernel, by decide +kernel, by decide +kernel, by decide +kernel, by decide +kernel⟩

end Verif.BF
