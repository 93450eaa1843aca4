import Verif.Boolf.Props37

/-!
# C95: the equivalence class under permutation of atoms (`ec_faction`), theorems
-/

namespace Verif.BF
open Verif.Py Verif.BV Verif.P Verif.W Verif.SP
open Verif.A hiding Mat

/-- the number of places: the argument, or the number of places of the function -/
def Boolf.Places (f : Boolf) (arity : Option Int) (n : Nat) : Prop := (arity = none ∧ n = f.adicity) ∨ (arity = some (n : Int) ∧ f.adicity ≤ n)

theorem ecCase_spec (f : Boolf) (arity : Option Int) (suppress : Bool) :
    (∀ a, arity = some a → a < f.adicity → f.ecCase arity suppress = .error .argTooSmall) ∧
    (∀ n, f.Places arity n → f.ecCase arity suppress = .ok (n, decide (n = f.valency) || suppress)) := by
  unfold Boolf.ecCase
  constructor
  · rintro a rfl h
    simp only [bind, Except.bind]
    rw [if_neg (by omega)]
  · rintro n (⟨rfl, rfl⟩ | ⟨rfl, h⟩)
    · simp [bind, Except.bind, pure, Except.pure]
    · simp only [bind, Except.bind, pure, Except.pure]
      rw [if_pos (by omega)]
      simp

theorem lit_key_nat (key n : Nat) : lit key.testBit (n : Int) = key.testBit n := lit_nat _ _

/-- **C95.** Errors of `ec_faction` for functions that are not constant. -/
theorem C95_errors (f : Boolf) (hc : f.isConstant = false) (arity : Option Int) (suppress : Bool) :
    (5 < f.adicity → f.ecFaction arity suppress = .error .argNotFeasible) ∧
    (f.adicity ≤ 5 → ∀ a, arity = some a → a < f.adicity → f.ecFaction arity suppress = .error .argTooSmall) := by
  unfold Boolf.ecFaction
  rw [if_neg (by rw [hc]; decide)]
  constructor
  · intro h; rw [if_neg (by omega)]
  · intro h a ha hlt
    rw [if_pos h, (ecCase_spec f arity suppress).1 a ha hlt]
    rfl

/-- **C95.** If the arity is the valency, or with `suppress_abbreviation`, the elements are the indices of the permutations of `range(arity)`; the label of
an index is the function that the permutation makes of `f`, and indices are in the same block iff these functions are equal. -/
theorem C95_short (f : Boolf) (hf : Obj f) (hc : f.isConstant = false) (ha : f.adicity ≤ 5) (arity : Option Int) (suppress : Bool) (n : Nat)
    (hn : f.Places arity n) (h : n = f.valency ∨ suppress = true) :
    ∃ E lab, f.ecFaction arity suppress = .ok E ∧ E.dims = [Nat.factorial n] ∧ E.combos = none ∧ Labelling E.part (Nat.factorial n) lab ∧
      ∀ k, k < Nat.factorial n → Reach (lab k) ∧ ∃ p, intToPerm k = .ok p ∧ (∀ x, x < n → p.get x < n) ∧
        ∀ key key' : Nat, (∀ x ∈ f.atomvals, key'.testBit x = key.testBit (p.get x)) → (lab k).getItem key = f.getItem key' := by
  obtain ⟨q, lab, h1, h2, h3⟩ := ecFactionShort_spec hf hc n
  refine ⟨{ part := q, dims := [Nat.factorial n] }, lab, ?_, rfl, rfl, h2, ?_⟩
  · unfold Boolf.ecFaction
    rw [if_neg (by rw [hc]; decide), if_pos ha, (ecCase_spec f arity suppress).2 n hn]
    simp only [bind, Except.bind]
    rw [if_pos (by simpa using h)]
    exact h1
  · intro k hk
    have hk' : k < (revColexPerms n).length := by rw [length_revColexPerms]; exact hk
    have hs := List.getElem?_eq_getElem hk'
    obtain ⟨_, p, _, p2, p3, p4, p5, p', p6, p7⟩ := perm_at hs
    have hl := h3 k _ hs
    refine ⟨hl.1.reach, p', p6, fun x hx => ?_, fun key key' hkey => ?_⟩
    · rw [p7]; exact p2.wf.maps_below n (Or.inl ⟨p3, p4⟩) x hx
    · apply hl.key hf.good.toSound
      intro x hx
      have hxn : x < n := lt_of_lt_of_le (hf.good.toSound.adic_lt hx) (by rcases hn with h | h <;> omega)
      rw [hkey x hx, p5 x hxn, Option.getD_some, lit_key_nat, p7]

/-- **C95.** Otherwise the elements are pairs: `(k, c)` stands for the permutation with index `k` of the atoms of `f`, and the choice of places with
index `c`.  The list of the choices is attached to the result. -/
theorem C95_long (f : Boolf) (hf : Obj f) (hc : f.isConstant = false) (ha : f.adicity ≤ 5) (arity : Option Int) (n : Nat) (hn : f.Places arity n) (h : n ≠ f.valency) :
    ∃ E lab combos, f.ecFaction arity = .ok E ∧ E.dims = [Nat.factorial f.valency, Nat.choose n f.valency] ∧ E.combos = some combos ∧
      combos.length = Nat.choose n f.valency ∧ combos.Nodup ∧ (∀ c, c ∈ combos ↔ c.length = f.valency ∧ c.Pairwise (· < ·) ∧ ∀ x ∈ c, x < n) ∧
      Labelling E.part (Nat.factorial f.valency * Nat.choose n f.valency) lab ∧
      ∀ k c combo, k < Nat.factorial f.valency → combos[c]? = some combo → Reach (lab (k * Nat.choose n f.valency + c)) ∧
        ∃ p, intToPerm k = .ok p ∧ (∀ i, i < f.valency → p.get i < f.valency) ∧
          ∀ key key' : Nat, (∀ i x y : Nat, f.atomvals[p.get i]? = some x → combo[i]? = some y → key'.testBit x = key.testBit y) →
            (lab (k * Nat.choose n f.valency + c)).getItem key = f.getItem key' := by
  obtain ⟨q, lab, h1, h2, h3⟩ := ecFactionLong_spec hf.good hc n
  refine ⟨{ part := q, dims := [Nat.factorial f.valency, Nat.choose n f.valency], combos := some (combinations (List.range n) f.valency) }, lab,
    combinations (List.range n) f.valency, ?_, rfl, rfl, by rw [length_combinations, List.length_range], nodup_combinations _ List.nodup_range _, ?_, h2, ?_⟩
  · unfold Boolf.ecFaction
    rw [if_neg (by rw [hc]; decide), if_pos ha, (ecCase_spec f arity false).2 n hn]
    simp only [bind, Except.bind]
    rw [if_neg (by simpa using h)]
    exact h1
  · intro c
    rw [mem_combinations_range]
    tauto
  · intro k c co hk hco
    have hk' : k < (revColexPerms f.valency).length := by rw [length_revColexPerms]; exact hk
    have hs := List.getElem?_eq_getElem hk'
    obtain ⟨_, p, _, p2, p3, p4, p5, p', p6, p7⟩ := perm_at hs
    have hb := p2.wf.maps_below f.valency (Or.inl ⟨p3, p4⟩)
    obtain ⟨w, w1, w2, hl⟩ := h3 k _ c co hs hco
    obtain ⟨_, _, c3⟩ := (mem_combinations_range _ _ _).1 (List.mem_of_getElem? hco)
    refine ⟨hl.1.reach, p', p6, fun x hx => by rw [p7]; exact hb x hx, fun key key' hkey => ?_⟩
    apply hl.key hf.good.toSound
    intro x hx
    have hix := List.idxOf_lt_length_of_mem hx
    rw [← hf.good.val] at hix
    obtain ⟨i, hi, hpi⟩ := List.mem_map.1 ((surj_below p2.wf.get_bijective.1 hb).mem_iff.2 (List.mem_range.2 hix))
    rw [List.mem_range] at hi
    have hxi : f.atomvals[p'.get i]? = some x := by
      rw [p7, hpi, List.getElem?_eq_getElem (by rw [← hf.good.val]; exact hix), List.getElem_idxOf]
    have hci : i < co.length := by omega
    rw [hkey i x co[i] hxi (List.getElem?_eq_getElem hci), List.getD_eq_getElem?_getD, ← hpi, w2 i (p.get i) (p5 i hi), List.getElem?_eq_getElem hci]
    exact (lit_key_nat _ _).symm

/-! ## constants -/

theorem label_whole (f : Boolf) (dims : List Nat) (N : Nat) (hd : dims.prod = N) (hN : 0 < N) :
    ∃ p q : SetPart Boolf, newPart [(List.range N).map Int.ofNat] (domainOf dims) = .ok p ∧ labelElements id (fun _ => .ok f) [0] p = .ok q ∧
      Labelling q N (fun _ => f) := by
  subst hd
  have hs : ((List.range dims.prod).map Int.ofNat).Pairwise (· < ·) := by
    rw [List.pairwise_map]
    exact List.pairwise_lt_range.imp (by intro a b h; simpa using h)
  have hm : ∀ x : Int, x ∈ (List.range dims.prod).map Int.ofNat ↔ ∃ i : Nat, i < dims.prod ∧ x = i := by
    intro x
    rw [List.mem_map]
    exact ⟨fun ⟨i, h1, h2⟩ => ⟨i, List.mem_range.1 h1, h2.symm⟩, fun ⟨i, h1, h2⟩ => ⟨i, List.mem_range.2 h1, h2.symm⟩⟩
  have h0 : (0 : Int) ∈ (List.range dims.prod).map Int.ofNat := (hm 0).2 ⟨0, hN, rfl⟩
  obtain ⟨p, hp, _⟩ := (C37_construction (L := Boolf) [(List.range dims.prod).map Int.ofNat] (domainOf dims)).1 (noOverlap_iff.2 (by
    by_cases h : 1 < ((List.range dims.prod).map Int.ofNat).length
    · rw [List.filter_cons_of_pos (by simpa using h)]; simpa using nodup_of_lt hs
    · rw [List.filter_cons_of_neg (by simpa using h)]; simp))
  obtain ⟨q, q1, _, _, q4, q5, q6, q7, q8⟩ := C44_label_whole ((List.range dims.prod).map Int.ofNat) 0 f h0 hs p hp
  refine ⟨p, q, hp, ?_, ⟨q4, ?_, ?_, ?_, ?_, by rw [q8]; simp⟩⟩
  · simp only [labelElements, bind, Except.bind, id_eq, Nat.cast_zero]
    rw [q1]
  · intro i hi
    exact (q6 _ _).2 ⟨(hm _).2 ⟨i, hi, rfl⟩, rfl⟩
  · intro i j hi hj hij
    rw [q5 _ _ (by simpa using hij)]
    exact ⟨fun _ => rfl, fun _ => ⟨(hm _).2 ⟨i, hi, rfl⟩, (hm _).2 ⟨j, hj, rfl⟩⟩⟩
  · intro g B
    rw [q7]
    constructor
    · rintro ⟨rfl, rfl⟩
      refine ⟨List.ne_nil_of_mem h0, hs, fun x => ?_⟩
      rw [hm]
      simp
    · rintro ⟨h1, h2, h3⟩
      obtain ⟨x, hx⟩ := List.exists_mem_of_ne_nil B h1
      obtain ⟨i, _, _, rfl⟩ := (h3 x).1 hx
      refine ⟨rfl, eq_of_mem_iff h2 hs fun x => ?_⟩
      rw [h3, hm]
      simp
  · intro g
    rw [q8]
    constructor
    · intro h; rw [List.mem_singleton] at h; exact ⟨0, hN, h.symm⟩
    · rintro ⟨_, _, rfl⟩; simp

/-- **C95.** For a constant all elements have this constant as label: with `suppress_abbreviation` and a positive arity the indices of all permutations,
otherwise only 0 or `(0, 0)`. -/
theorem C95_constant (f : Boolf) (hc : f.isConstant = true) (arity : Option Int) (suppress : Bool) :
    (∀ n : Nat, 0 < n → arity = some (n : Int) → suppress = true →
      ∃ E, f.ecFaction arity suppress = .ok E ∧ E.dims = [Nat.factorial n] ∧ E.combos = none ∧ Labelling E.part (Nat.factorial n) fun _ => f) ∧
    ((suppress = false ∨ arity = none ∨ ∃ a, arity = some a ∧ a ≤ 0) →
      ∃ E, f.ecFaction arity suppress = .ok E ∧ E.dims = (if arity = none ∨ arity = some 0 then [1] else [1, 1]) ∧ E.combos = none ∧ Labelling E.part 1 fun _ => f) := by
  unfold Boolf.ecFaction
  rw [if_pos hc]
  unfold Boolf.ecFactionConstant
  constructor
  · rintro n hn rfl rfl
    obtain ⟨p, q, h1, h2, h3⟩ := label_whole f [Nat.factorial n] (Nat.factorial n) (by simp) (Nat.factorial_pos n)
    refine ⟨{ part := q, dims := [Nat.factorial n] }, ?_, rfl, rfl, h3⟩
    simp only [Option.getD_some, Bool.true_and]
    rw [if_pos (by simpa using hn)]
    simp only [Int.toNat_natCast, List.prod_singleton, bind, Except.bind, pure, Except.pure]
    rw [h1]
    simp only
    rw [h2]
  · intro h
    have hneg : ¬ ((suppress && decide (arity.getD 0 > 0)) = true) := by
      rcases h with rfl | rfl | ⟨a, rfl, ha⟩
      · simp
      · simp
      · simp only [Option.getD_some, Bool.and_eq_true, decide_eq_true_eq]; omega
    have hd : (if arity = none ∨ arity = some 0 then [1] else [1, 1]) = if arity.getD 0 = 0 then [1] else [1, 1] := by
      cases arity with
      | none => simp
      | some a => simp
    obtain ⟨p, q, h1, h2, h3⟩ := label_whole f (if arity.getD 0 = 0 then [1] else [1, 1]) 1 (by split <;> rfl) (by omega)
    refine ⟨{ part := q, dims := if arity.getD 0 = 0 then [1] else [1, 1] }, ?_, hd.symm, rfl, h3⟩
    simp only
    rw [if_neg hneg]
    simp only [bind, Except.bind, pure, Except.pure]
    rw [show ([[0]] : List (List Int)) = [(List.range 1).map Int.ofNat] from rfl, h1]
    simp only
    rw [h2]

end Verif.BF
