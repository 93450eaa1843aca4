import Verif.Boolf.Props40

/-!
# C96: the equivalence class under negation and permutation of atoms (`ec_clan`), theorems
-/

namespace Verif.BF
open Verif.Py Verif.BV Verif.P Verif.W Verif.SP
open Verif.A hiding Mat

theorem lit_key_slit (key : Nat) (b : Bool) (n : Nat) : lit key.testBit (slit b n) = (key.testBit n ^^ b) := lit_slit _ _ _

/-- **C96.** Errors of `ec_clan` for functions that are not constant. -/
theorem C96_errors (fuel : Nat) (f : Boolf) (hc : f.isConstant = false) (arity : Option Int) (suppress : Bool) :
    (5 < f.adicity → f.ecClan (fuel + 1) arity suppress = .error .argNotFeasible) ∧
    (f.adicity ≤ 5 → ∀ a, arity = some a → a < f.adicity → f.ecClan (fuel + 1) arity suppress = .error .argTooSmall) := by
  unfold Boolf.ecClan
  rw [if_neg (by rw [hc]; decide)]
  constructor
  · intro h; rw [if_neg (by omega)]
  · intro h a ha hlt
    rw [if_pos h, (ecCase_spec f arity suppress).1 a ha hlt]
    rfl

theorem ecClan_redundant {f : Boolf} (hc : f.isConstant = false) (ha : f.adicity ≤ 5) {arity : Option Int} {suppress : Bool} {n : Nat}
    (hn : f.Places arity n) (h : n = f.valency ∨ suppress = true) (fuel : Nat) : f.ecClan (fuel + 1) arity suppress = f.ecClanRedundant n := by
  unfold Boolf.ecClan
  rw [if_neg (by rw [hc]; decide), if_pos ha, (ecCase_spec f arity suppress).2 n hn]
  simp only [bind, Except.bind]
  rw [if_pos (by simpa using h)]

theorem ecClan_abbreviated {f : Boolf} (hc : f.isConstant = false) (ha : f.adicity ≤ 5) {arity : Option Int} {n : Nat}
    (hn : f.Places arity n) (h : n ≠ f.valency) (fuel : Nat) : f.ecClan (fuel + 1) arity false = f.ecClanAbbreviated n := by
  unfold Boolf.ecClan
  rw [if_neg (by rw [hc]; decide), if_pos ha, (ecCase_spec f arity false).2 n hn]
  simp only [bind, Except.bind]
  rw [if_neg (by simpa using h)]

/-- **C96.** If the arity is the valency, or with `suppress_abbreviation`, the elements are pairs `(m, k)` of a number of negations and the index of a
permutation of `range(arity)`.  In the label of `(m, k)` each atom is replaced by its image in the permutation, which is negated iff `m` has this digit. -/
theorem C96_redundant (f : Boolf) (hf : Obj f) (hc : f.isConstant = false) (ha : f.adicity ≤ 5) (arity : Option Int) (suppress : Bool) (n : Nat)
    (hn : f.Places arity n) (h : n = f.valency ∨ suppress = true) :
    ∃ E lab, (∀ fuel, f.ecClan (fuel + 1) arity suppress = .ok E) ∧ E.dims = [2 ^ n, Nat.factorial n] ∧ E.combos = none ∧
      Labelling E.part (2 ^ n * Nat.factorial n) lab ∧
      ∀ m k, m < 2 ^ n → k < Nat.factorial n → Reach (lab (m * Nat.factorial n + k)) ∧ ∃ p, intToPerm k = .ok p ∧ (∀ x, x < n → p.get x < n) ∧
        ∀ key key' : Nat, (∀ x ∈ f.atomvals, key'.testBit x = (key.testBit (p.get x) ^^ m.testBit (p.get x))) →
          (lab (m * Nat.factorial n + k)).getItem key = f.getItem key' := by
  obtain ⟨q, lab, h1, h2, h3⟩ := ecClanRedundant_spec hf.good hc n
  refine ⟨{ part := q, dims := [2 ^ n, Nat.factorial n] }, lab, fun fuel => by rw [ecClan_redundant hc ha hn h, h1], rfl, rfl, h2, ?_⟩
  intro m k hm hk
  have hk' : k < (revColexPerms n).length := by rw [length_revColexPerms]; exact hk
  obtain ⟨p, p1, _, p3, _, hl⟩ := h3 m k _ hm (List.getElem?_eq_getElem hk')
  refine ⟨hl.1.reach, p, p1, p3, fun key key' hkey => hl.key hf.good.toSound fun x hx => ?_⟩
  rw [hkey x hx, lit_key_slit]

/-- **C96.** Otherwise the elements are triples: `(m, k, c)` stands for the negations `m` and the permutation `k` of the atoms of `f`, and the choice of places
with index `c`.  The atom at place `p(i)` is replaced by entry `i` of the choice, which is negated iff `m` has the digit `p(i)`. -/
theorem C96_abbreviated (f : Boolf) (hf : Obj f) (hc : f.isConstant = false) (ha : f.adicity ≤ 5) (arity : Option Int) (n : Nat) (hn : f.Places arity n)
    (h : n ≠ f.valency) :
    ∃ E lab combos, (∀ fuel, f.ecClan (fuel + 1) arity false = .ok E) ∧ E.dims = [2 ^ f.valency, Nat.factorial f.valency, Nat.choose n f.valency] ∧
      E.combos = some combos ∧ combos.length = Nat.choose n f.valency ∧ combos.Nodup ∧
      (∀ c, c ∈ combos ↔ c.length = f.valency ∧ c.Pairwise (· < ·) ∧ ∀ x ∈ c, x < n) ∧
      Labelling E.part (2 ^ f.valency * Nat.factorial f.valency * Nat.choose n f.valency) lab ∧
      ∀ m k c combo, m < 2 ^ f.valency → k < Nat.factorial f.valency → combos[c]? = some combo →
        Reach (lab ((m * Nat.factorial f.valency + k) * Nat.choose n f.valency + c)) ∧
        ∃ p, intToPerm k = .ok p ∧ (∀ i, i < f.valency → p.get i < f.valency) ∧
          ∀ key key' : Nat, (∀ i x y : Nat, f.atomvals[p.get i]? = some x → combo[i]? = some y → key'.testBit x = (key.testBit y ^^ m.testBit (p.get i))) →
            (lab ((m * Nat.factorial f.valency + k) * Nat.choose n f.valency + c)).getItem key = f.getItem key' := by
  obtain ⟨q, lab, h1, h2, h3⟩ := ecClanAbbreviated_spec hf.good hc n
  refine ⟨{ part := q, dims := [2 ^ f.valency, Nat.factorial f.valency, Nat.choose n f.valency], combos := some (combinations (List.range n) f.valency) }, lab,
    combinations (List.range n) f.valency, fun fuel => by rw [ecClan_abbreviated hc ha hn h, h1], rfl, rfl,
    by rw [length_combinations, List.length_range], nodup_combinations _ List.nodup_range _, ?_, h2, ?_⟩
  · intro c
    rw [mem_combinations_range]
    tauto
  · intro m k c co hm hk hco
    have hk' : k < (revColexPerms f.valency).length := by rw [length_revColexPerms]; exact hk
    have hs := List.getElem?_eq_getElem hk'
    obtain ⟨_, p', _, p2, _, _, _, p'', p6, p7⟩ := perm_at hs
    obtain ⟨p, w, p1, p5, hb, w1, w2, hl⟩ := h3 m k _ c co hm hs hco
    rw [p1] at p6
    obtain rfl : p = p'' := Except.ok.inj p6
    have hinj : Function.Injective p.get := by rw [show p.get = p'.get from funext p7]; exact p2.wf.get_bijective.1
    obtain ⟨_, _, c3⟩ := (mem_combinations_range _ _ _).1 (List.mem_of_getElem? hco)
    refine ⟨hl.1.reach, p, p1, hb, fun key key' hkey => hl.key hf.good.toSound fun x hx => ?_⟩
    have hix := List.idxOf_lt_length_of_mem hx
    rw [← hf.good.val] at hix
    obtain ⟨i, hi, hpi⟩ := List.mem_map.1 ((surj_below hinj hb).mem_iff.2 (List.mem_range.2 hix))
    rw [List.mem_range] at hi
    have hxi : f.atomvals[p.get i]? = some x := by
      rw [hpi, List.getElem?_eq_getElem (by rw [← hf.good.val]; exact hix), List.getElem_idxOf]
    have hci : i < co.length := by omega
    rw [hkey i x co[i] hxi (List.getElem?_eq_getElem hci), List.getD_eq_getElem?_getD, ← hpi, w2 i (p.get i) (p5 i hi), List.getElem?_eq_getElem hci,
      Option.getD_some, lit_key_slit]

/-- Specification: `g` is `f` with other atoms, which are below `n`, and some of which are negated. -/
def SignedRenamed (n : Nat) (f g : Boolf) : Prop :=
  ∃ (r : Nat → Nat) (s : Nat → Bool), (∀ x ∈ f.atomvals, r x < n) ∧ (∀ x ∈ f.atomvals, ∀ y ∈ f.atomvals, r x = r y → x = y) ∧
    ∀ key key' : Nat, (∀ x ∈ f.atomvals, key'.testBit x = (key.testBit (r x) ^^ s x)) → g.getItem key = f.getItem key'

theorem clan_ok {f : Boolf} {arity : Option Int} {suppress : Bool} {E : EcPart} {fuel : Nat} (hc : f.isConstant = false)
    (hE : f.ecClan fuel arity suppress = .ok E) : (∃ m, fuel = m + 1) ∧ f.adicity ≤ 5 ∧ ∃ n, f.Places arity n := by
  cases fuel with
  | zero => cases hE
  | succ fuel =>
    refine ⟨⟨_, rfl⟩, ?_⟩
    by_cases ha : f.adicity ≤ 5
    · refine ⟨ha, ?_⟩
      cases arity with
      | none => exact ⟨_, Or.inl ⟨rfl, rfl⟩⟩
      | some a =>
        by_cases h : a < f.adicity
        · rw [(C96_errors fuel f hc _ suppress).2 ha a rfl h] at hE; cases hE
        · exact ⟨a.toNat, Or.inr ⟨by congr 1; omega, by omega⟩⟩
    · rw [(C96_errors fuel f hc _ suppress).1 (by omega)] at hE; cases hE

/-- a number with given digits at different places -/
theorem digits_at {n : Nat} {A : List Nat} {r : Nat → Nat} (hr : ∀ x ∈ A, r x < n) (hi : ∀ x ∈ A, ∀ y ∈ A, r x = r y → x = y) (s : Nat → Bool) :
    ∃ m, m < 2 ^ n ∧ ∀ x ∈ A, m.testBit (r x) = s x := by
  refine ⟨valB ((List.range n).map fun y => ((A.find? fun x => r x == y).map s).getD false), by
    have := valB_map_lt (List.range n) fun y => ((A.find? fun x => r x == y).map s).getD false
    rwa [List.length_range] at this, fun x hx => ?_⟩
  rw [testBit_valB_range, decide_eq_true (hr x hx), Bool.true_and]
  cases h : A.find? fun x' => r x' == r x with
  | none => have := List.find?_eq_none.1 h x hx; simp at this
  | some y =>
    have h1 := List.mem_of_find?_eq_some h
    have h2 := List.find?_some h
    rw [hi y h1 x hx (by simpa using h2)]
    rfl

/-- **C96.** In each case the labels are exactly the functions that arise by replacing the atoms with different atoms below the arity, negated or not. -/
theorem C96_members (fuel : Nat) (f : Boolf) (hf : Reach f) (hc : f.isConstant = false) (arity : Option Int) (suppress : Bool) (n : Nat) (hn : f.Places arity n)
    (E : EcPart) (hE : f.ecClan fuel arity suppress = .ok E) (g : Boolf) :
    g ∈ E.part.blockLabels.map Prod.snd ↔ Reach g ∧ SignedRenamed n f g := by
  obtain ⟨⟨fuel, rfl⟩, ha, _⟩ := clan_ok hc hE
  have hgd := hf.obj.good
  have hA : ∀ x ∈ f.atomvals, x < n := fun x hx => lt_of_lt_of_le (hgd.toSound.adic_lt hx) (places_le hn)
  have hdir : ∀ {g : Boolf} {r : Nat → Nat} {s : Nat → Bool}, Lits f (fun x => slit (s x) (r x : Nat)) g → (∀ x ∈ f.atomvals, r x < n) →
      (∀ x ∈ f.atomvals, ∀ y ∈ f.atomvals, r x = r y → x = y) → Reach g ∧ SignedRenamed n f g := by
    intro g r s hl h1 h2
    refine ⟨hl.1.reach, r, s, h1, h2, fun key key' hk => hl.key hgd.toSound fun x hx => ?_⟩
    rw [hk x hx, lit_key_slit]
  have hrev : ∀ {g g' : Boolf} {r : Nat → Nat} {s : Nat → Bool}, Reach g →
      (∀ key key' : Nat, (∀ x ∈ f.atomvals, key'.testBit x = (key.testBit (r x) ^^ s x)) → g.getItem key = f.getItem key') →
      Lits f (fun x => slit (s x) (r x : Nat)) g' → g' = g := by
    intro g g' r s hg h hl
    apply hl.1.ext_key hg.canon
    intro key
    obtain ⟨key', _, hk⟩ := exists_key hgd.toSound fun x => (key.testBit (r x) ^^ s x)
    rw [h key key' hk, hl.key hgd.toSound (key := key) (key' := key') (fun x hx => by rw [hk x hx, lit_key_slit])]
  by_cases hsh : n = f.valency ∨ suppress = true
  · obtain ⟨q, lab, h1, h2, h3⟩ := ecClanRedundant_spec hgd hc n
    rw [ecClan_redundant hc ha hn hsh, h1] at hE
    cases hE
    simp only [h2.labels]
    constructor
    · rintro ⟨x, hx, rfl⟩
      have a1 : x % Nat.factorial n < (revColexPerms n).length := by rw [length_revColexPerms]; exact Nat.mod_lt _ (Nat.factorial_pos n)
      have a2 : x / Nat.factorial n < 2 ^ n := Nat.div_lt_of_lt_mul (by rwa [Nat.mul_comm])
      obtain ⟨p, p1, p2, p3, p4, hl⟩ := h3 _ _ _ a2 (List.getElem?_eq_getElem a1)
      rw [Nat.div_add_mod'] at hl
      exact hdir hl (fun x hx => p3 x (hA x hx)) (fun x _ y _ h => p4 h)
    · rintro ⟨hg, r, s, r1, r2, r3⟩
      obtain ⟨t, s1, s2⟩ := extend_arrangement hA r1 r2
      obtain ⟨k, hk⟩ := List.mem_iff_getElem?.1 ((mem_revColexPerms n t).2 s1)
      obtain ⟨m, m1, m2⟩ := digits_at r1 r2 s
      have hkf : k < Nat.factorial n := by rw [← length_revColexPerms n]; exact (List.getElem?_eq_some_iff.1 hk).1
      refine ⟨m * Nat.factorial n + k, ?_, ?_⟩
      · calc m * Nat.factorial n + k < m * Nat.factorial n + Nat.factorial n := by omega
          _ = (m + 1) * Nat.factorial n := by rw [Nat.add_mul, Nat.one_mul]
          _ ≤ _ := Nat.mul_le_mul_right _ m1
      · obtain ⟨p, p1, p2, p3, p4, hl⟩ := h3 m k t m1 hk
        refine hrev hg r3 (hl.congr fun x hx => ?_)
        have : p.get x = r x := Option.some.inj ((p2 x (hA x hx)).symm.trans (s2 x hx))
        rw [this, m2 x hx]
  · have hs0 : suppress = false := by cases suppress <;> simp_all
    subst hs0
    obtain ⟨q, lab, h1, h2, h3⟩ := ecClanAbbreviated_spec hgd hc n
    rw [ecClan_abbreviated hc ha hn (by simpa using hsh), h1] at hE
    cases hE
    simp only [h2.labels]
    have hC : (combinations (List.range n) f.valency).length = Nat.choose n f.valency := by rw [length_combinations, List.length_range]
    constructor
    · rintro ⟨x, hx, rfl⟩
      have hC0 : 0 < Nat.choose n f.valency := by
        rcases Nat.eq_zero_or_pos (Nat.choose n f.valency) with h | h
        · rw [h] at hx; simp at hx
        · exact h
      have a0 : x % Nat.choose n f.valency < (combinations (List.range n) f.valency).length := by rw [hC]; exact Nat.mod_lt _ hC0
      have hy : x / Nat.choose n f.valency < 2 ^ f.valency * Nat.factorial f.valency := Nat.div_lt_of_lt_mul (by rwa [Nat.mul_comm])
      have a1 : (x / Nat.choose n f.valency) % Nat.factorial f.valency < (revColexPerms f.valency).length := by
        rw [length_revColexPerms]; exact Nat.mod_lt _ (Nat.factorial_pos _)
      have a2 : (x / Nat.choose n f.valency) / Nat.factorial f.valency < 2 ^ f.valency := Nat.div_lt_of_lt_mul (by rwa [Nat.mul_comm])
      obtain ⟨p, w, _, _, _, w1, w2, hl⟩ := h3 _ _ _ _ _ a2 (List.getElem?_eq_getElem a1) (List.getElem?_eq_getElem a0)
      rw [Nat.div_add_mod', Nat.div_add_mod'] at hl
      obtain ⟨c1, c2, c3⟩ := (mem_combinations_range _ _ _).1 (List.getElem_mem a0)
      have hwl : w.length = f.valency := by rw [w1.length_eq, c3]
      have hwn : w.Nodup := w1.nodup_iff.2 (c1.imp fun h => Nat.ne_of_lt h)
      have hix : ∀ x ∈ f.atomvals, f.atomvals.idxOf x < w.length := fun x hx => by
        rw [hwl, hgd.val]; exact List.idxOf_lt_length_of_mem hx
      have hwd : ∀ x (hx : x ∈ f.atomvals), w.getD (f.atomvals.idxOf x) 0 = w[f.atomvals.idxOf x]'(hix x hx) := fun x hx => by
        rw [List.getD_eq_getElem?_getD, List.getElem?_eq_getElem (hix x hx)]; rfl
      refine hdir hl (fun x hx => ?_) (fun x hx y hy h => ?_)
      · rw [hwd x hx]; exact c2 _ (w1.mem_iff.1 (List.getElem_mem _))
      · rw [hwd x hx, hwd y hy] at h
        have := (hwn.getElem_inj_iff).1 h
        exact (List.idxOf_inj hx).1 this
    · rintro ⟨hg, r, s, r1, r2, r3⟩
      obtain ⟨t, c, s1, s2, s3, s4⟩ := choice_arrangement (n := n) (nodup_map_on hgd.toSound.nodup r2) (by
        intro x hx
        obtain ⟨y, hy, rfl⟩ := List.mem_map.1 hx
        exact r1 y hy)
      rw [List.length_map, ← hgd.val] at s1 s2
      obtain ⟨k, hk⟩ := List.mem_iff_getElem?.1 ((mem_revColexPerms _ t).2 s1)
      obtain ⟨ci, hci⟩ := List.mem_iff_getElem?.1 s2
      have hm : valB (f.atomvals.map s) < 2 ^ f.valency := by rw [hgd.val]; exact valB_map_lt _ _
      obtain ⟨p, w, _, _, _, w1, w2, hl⟩ := h3 (valB (f.atomvals.map s)) k t ci c hm hk hci
      have hw : w = f.atomvals.map r := arranged_eq s1 (by rw [w1.length_eq, s3.length_eq, List.length_map, hgd.val]) (by rw [List.length_map, hgd.val]) w2 s4
      refine ⟨(valB (f.atomvals.map s) * Nat.factorial f.valency + k) * Nat.choose n f.valency + ci, ?_, ?_⟩
      · have b1 : k < Nat.factorial f.valency := by rw [← length_revColexPerms f.valency]; exact (List.getElem?_eq_some_iff.1 hk).1
        have b2 : ci < Nat.choose n f.valency := by rw [← hC]; exact (List.getElem?_eq_some_iff.1 hci).1
        have b3 : valB (f.atomvals.map s) * Nat.factorial f.valency + k < 2 ^ f.valency * Nat.factorial f.valency := by
          calc valB (f.atomvals.map s) * Nat.factorial f.valency + k < valB (f.atomvals.map s) * Nat.factorial f.valency + Nat.factorial f.valency := by omega
            _ = (valB (f.atomvals.map s) + 1) * Nat.factorial f.valency := by rw [Nat.add_mul, Nat.one_mul]
            _ ≤ _ := Nat.mul_le_mul_right _ hm
        generalize valB (f.atomvals.map s) * Nat.factorial f.valency + k = z at b3 ⊢
        calc z * Nat.choose n f.valency + ci < z * Nat.choose n f.valency + Nat.choose n f.valency := by omega
          _ = (z + 1) * Nat.choose n f.valency := by rw [Nat.add_mul, Nat.one_mul]
          _ ≤ _ := Nat.mul_le_mul_right _ b3
      · refine hrev hg r3 (hl.congr fun x hx => ?_)
        have hx' := List.idxOf_lt_length_of_mem hx
        rw [hw, List.getD_eq_getElem?_getD, List.getElem?_map, testBit_valB_map, List.getElem?_eq_getElem hx', List.getElem_idxOf]
        rfl

/-! ## constants -/

theorem fullspots_all (n : Nat) (h0 : 0 < n) :
    ∃ f, newFullspots ((List.range (2 ^ n)).map Int.ofNat) (some ((List.range n).map Int.ofNat)) none true = .ok f ∧ Good f ∧ f.isConstant = false ∧
      f.adicity = n ∧ ∀ a, f.eval a = true := by
  obtain ⟨b, b1, b2, b3⟩ := (C26_exposet (List.range (2 ^ n)) (2 ^ n)).1 (by simp)
  obtain ⟨f, g, f1, g1, f2, f3, f4⟩ := C66_skip b.vector (List.range n) List.nodup_range (by simp; omega) (by rw [List.length_range]; exact b2)
  have hat : f.atomvals = List.range n := eq_of_mem_iff_of_lt f3 List.pairwise_lt_range (fun x => f2.mem_iff)
  have hgd := good_newTT f1
  refine ⟨f, ?_, hgd, ?_, ?_, fun a => ?_⟩
  · unfold newFullspots
    rw [if_neg (by simp), if_neg (by simp)]
    simp only [Option.getD_some]
    rw [if_neg (by simp; omega)]
    simp only [List.length_map, List.length_range, shl_eq, b1, bind, Except.bind, if_true]
    exact f1
  · rw [Bool.eq_false_iff, Ne, hgd.const, hat]; simp; omega
  · apply le_antisymm
    · rw [hgd.adic, hat]; simp
    · by_contra h
      have := (hgd.adic (n - 1)).1 (by omega) (n - 1) (by rw [hat]; simp; omega)
      omega
  · obtain ⟨key, k1, _⟩ := exists_key hgd.toSound a
    obtain ⟨g', e1, e2, e3⟩ := ttDeflated_asc (b := b) (List.pairwise_lt_range (n := n)) (by rw [List.length_range]; exact b2)
    rw [newTT_binv] at g1
    obtain rfl : g = g' := Except.ok.inj (g1.symm.trans e1)
    have := f4 key
    rw [getItem_eq hgd.toSound, getItem_eq e2.toSound, Except.ok.injEq, k1, e3] at this
    rw [this]
    have hlt : valB ((List.range n).map key.testBit) < 2 ^ n := by
      have := valB_map_lt (List.range n) key.testBit
      rwa [List.length_range] at this
    have hm := (b3 _).2 (List.mem_range.2 hlt)
    rw [mem_exposet] at hm
    rw [List.getD_eq_getElem?_getD, hm]
    rfl

theorem Labelling.congr {p : SetPart Boolf} {N : Nat} {lab lab' : Nat → Boolf} (h : Labelling p N lab) (e : ∀ i, i < N → lab i = lab' i) : Labelling p N lab' := by
  refine ⟨h.domain, fun i hi => by rw [← e i hi]; exact h.label i hi, fun i j hi hj hij => by rw [← e i hi, ← e j hj]; exact h.same i j hi hj hij, fun g B => ?_,
    fun g => ?_, h.nodup⟩
  · rw [h.block]
    refine and_congr Iff.rfl (and_congr Iff.rfl (forall_congr' fun x => iff_congr Iff.rfl (exists_congr fun i => and_congr_right fun hi => ?_)))
    rw [e i hi]
  · rw [h.labels]
    exact exists_congr fun i => and_congr_right fun hi => by rw [e i hi]

theorem Canon.eq_const {f : Boolf} (hf : Canon f) (hc : f.isConstant = true) : ∃ b, f = setConstant b := by
  have hA : f.atomvals = [] := by rw [hf.const] at hc; simpa using hc
  refine ⟨f.eval fun _ => false, hf.ext (canon_const _) fun a => ?_⟩
  rw [eval_const]
  exact Boolf.eval_congr (by rw [hA]; simp)

theorem const_root {b : Bool} : (setConstant b).root.getItem 0 = .ok b := by cases b <;> rfl

/-- **C96.** Without `suppress_abbreviation` the result for a constant has only one element, which has this constant as label. -/
theorem C96_constant (fuel : Nat) (f : Boolf) (hc : f.isConstant = true) (arity : Option Int) :
    ∃ E, f.ecClan (fuel + 1) arity false = .ok E ∧ E.dims = (if arity = none ∨ arity = some 0 then [1, 1] else [1, 1, 1]) ∧ E.combos = none ∧
      Labelling E.part 1 fun _ => f := by
  obtain ⟨p, q, h1, h2, h3⟩ := label_one f (if arity = none ∨ arity = some 0 then [1, 1] else [1, 1, 1]) (by split <;> rfl)
  refine ⟨{ part := q, dims := if arity = none ∨ arity = some 0 then [1, 1] else [1, 1, 1] }, ?_, rfl, rfl, h3⟩
  unfold Boolf.ecClan
  rw [if_pos hc]
  simp only [Bool.not_false, if_true, bind, Except.bind, pure, Except.pure]
  rw [h1]
  simp only
  rw [h2]

/-- **C96.** With `suppress_abbreviation` the constant `True` has for positive arities all pairs in one block, with itself as label.  More than five places are
refused. -/
theorem C96_constant_true (fuel n : Nat) (h0 : 0 < n) :
    (n ≤ 5 → ∃ E, (setConstant true).ecClan (fuel + 2) (some (n : Int)) true = .ok E ∧ E.dims = [2 ^ n, Nat.factorial n] ∧ E.combos = none ∧
      Labelling E.part (2 ^ n * Nat.factorial n) fun _ => setConstant true) ∧
    (5 < n → (setConstant true).ecClan (fuel + 2) (some (n : Int)) true = .error .argNotFeasible) := by
  obtain ⟨f, f1, f2, f3, f4, f5⟩ := fullspots_all n h0
  have step : (setConstant true).ecClan (fuel + 2) (some (n : Int)) true = f.ecClan (fuel + 1) (some (n : Int)) true := by
    rw [Boolf.ecClan.eq_2, if_pos (show (setConstant _).isConstant = true from rfl)]
    simp only [Bool.not_true, Bool.false_eq_true, if_false, bind, Except.bind, const_root, if_true, Int.toNat_natCast]
    rw [if_neg (by omega)]
    simp only [f1]
  constructor
  · intro hn
    obtain ⟨q, lab, h1, h2, h3⟩ := ecClanRedundant_spec f2 f3 n
    have hlab : ∀ i, i < 2 ^ n * Nat.factorial n → lab i = setConstant true := by
      intro x hx
      have a1 : x % Nat.factorial n < (revColexPerms n).length := by rw [length_revColexPerms]; exact Nat.mod_lt _ (Nat.factorial_pos n)
      have a2 : x / Nat.factorial n < 2 ^ n := Nat.div_lt_of_lt_mul (by rwa [Nat.mul_comm])
      obtain ⟨p, _, _, _, _, hl⟩ := h3 _ _ _ a2 (List.getElem?_eq_getElem a1)
      rw [Nat.div_add_mod'] at hl
      apply hl.1.ext (canon_const true)
      intro a
      rw [hl.2, f5, eval_const]
    refine ⟨{ part := q, dims := [2 ^ n, Nat.factorial n] }, ?_, rfl, rfl, h2.congr hlab⟩
    rw [step, ecClan_redundant f3 (by omega) (Or.inr ⟨rfl, by omega⟩) (Or.inr rfl), h1]
  · intro hn
    rw [step]
    exact (C96_errors fuel f f3 _ _).1 (by omega)

/-- **C96, deviations.** With `suppress_abbreviation` the recursion for the constant `False` never ends, and neither does that for the constant `True` with arity
0: the function that is built to avoid the case of constants is again the constant.  Without arity there is a TypeError. -/
theorem C96_constant_diverges (fuel : Nat) :
    (∀ a : Int, (setConstant false).ecClan fuel (some a) true = .error .diverges) ∧
    (setConstant true).ecClan fuel (some 0) true = .error .diverges ∧
    (∀ b, (setConstant b).ecClan (fuel + 1) none true = .error .typeError) ∧
    (∀ a : Int, a < 0 → (setConstant true).ecClan (fuel + 1) (some a) true = .error .typeError) := by
  refine ⟨fun a => ?_, ?_, fun b => ?_, fun a ha => ?_⟩
  · induction fuel with
    | zero => rfl
    | succ fuel ih =>
      rw [Boolf.ecClan.eq_2, if_pos (show (setConstant _).isConstant = true from rfl)]
      simp only [Bool.not_true, Bool.false_eq_true, if_false, bind, Except.bind, const_root]
      exact ih
  · induction fuel with
    | zero => rfl
    | succ fuel ih =>
      rw [Boolf.ecClan.eq_2, if_pos (show (setConstant _).isConstant = true from rfl)]
      simp only [Bool.not_true, Bool.false_eq_true, if_false, bind, Except.bind, const_root, if_true]
      exact ih
  · rw [Boolf.ecClan.eq_2, if_pos (show (setConstant _).isConstant = true from rfl)]
    cases b <;> rfl
  · rw [Boolf.ecClan.eq_2, if_pos (show (setConstant _).isConstant = true from rfl)]
    simp only [Bool.not_true, Bool.false_eq_true, if_false, bind, Except.bind, const_root, if_true]
    rw [if_pos ha]

/-- **C96.** With and without abbreviation there are the same labels. -/
theorem C96_abbreviation (fuel fuel' : Nat) (f : Boolf) (hf : Reach f) (arity : Option Int) (E F : EcPart) (hE : f.ecClan fuel arity false = .ok E)
    (hF : f.ecClan fuel' arity true = .ok F) (g : Boolf) : g ∈ E.part.blockLabels.map Prod.snd ↔ g ∈ F.part.blockLabels.map Prod.snd := by
  by_cases hc : f.isConstant = true
  · obtain ⟨b, rfl⟩ := hf.canon.eq_const hc
    have hE1 : ∀ g, g ∈ E.part.blockLabels.map Prod.snd ↔ g = setConstant b := by
      cases fuel with
      | zero => cases hE
      | succ fuel =>
        obtain ⟨E', e1, _, _, e4⟩ := C96_constant fuel _ hc arity
        obtain rfl : E = E' := Except.ok.inj (hE.symm.trans e1)
        intro g
        rw [e4.labels]
        exact ⟨fun ⟨_, _, h⟩ => h.symm, fun h => ⟨0, by omega, h.symm⟩⟩
    rw [hE1]
    obtain ⟨d1, d2, d3, d4⟩ := C96_constant_diverges fuel'
    cases arity with
    | none =>
      cases fuel' with
      | zero => cases hF
      | succ m => rw [(C96_constant_diverges m).2.2.1] at hF; cases hF
    | some a =>
      cases b with
      | false => rw [d1] at hF; cases hF
      | true =>
        rcases lt_trichotomy a 0 with h | rfl | h
        · cases fuel' with
          | zero => cases hF
          | succ m => rw [(C96_constant_diverges m).2.2.2 a h] at hF; cases hF
        · rw [d2] at hF; cases hF
        · obtain ⟨n, rfl⟩ : ∃ n : Nat, a = n := ⟨a.toNat, by omega⟩
          have hn : 0 < n := by omega
          match fuel', hF with
          | 0, hF => cases hF
          | 1, hF =>
            obtain ⟨f, f1, _⟩ := fullspots_all n hn
            rw [Boolf.ecClan.eq_2, if_pos (show (setConstant _).isConstant = true from rfl)] at hF
            simp only [Bool.not_true, Bool.false_eq_true, if_false, bind, Except.bind, const_root, if_true, Int.toNat_natCast] at hF
            rw [if_neg (by omega)] at hF
            simp only [f1] at hF
            cases hF
          | m + 2, hF =>
            obtain ⟨c1, c2⟩ := C96_constant_true m n hn
            by_cases h5 : n ≤ 5
            · obtain ⟨F', e1, _, _, e4⟩ := c1 h5
              obtain rfl : F = F' := Except.ok.inj (hF.symm.trans e1)
              rw [e4.labels]
              exact ⟨fun h => ⟨0, Nat.mul_pos (Nat.two_pow_pos _) (Nat.factorial_pos _), h.symm⟩, fun ⟨_, _, h⟩ => h.symm⟩
            · rw [c2 (by omega)] at hF; cases hF
  · rw [Bool.not_eq_true] at hc
    obtain ⟨_, _, n, hn⟩ := clan_ok hc hE
    rw [C96_members _ f hf hc arity _ n hn E hE, C96_members _ f hf hc arity _ n hn F hF]

/-- `a and not b`: eight pairs and four functions for two places. -/
example : ∃ f E F, newTT (.str "0100".toList) none = .ok f ∧ Reach f ∧ f.ecClan 1 none false = .ok E ∧ E.dims = [4, 2] ∧ E.part.blockLabels.length = 4 ∧
    f.ecClan 1 (some 3) false = .ok F ∧ F.dims = [4, 2, 3] ∧ F.combos = some [[0, 1], [0, 2], [1, 2]] ∧ F.part.blockLabels.length = 12 := by
  obtain ⟨_, e1, e2⟩ := newTT_explicit "0100".toList [false, true, false, false] [0, 1] 2 (by decide) (by decide) (by decide) (by intro n; simp; omega)
    (by decide) (by decide)
  exact ⟨_, _, _, e1 (by decide), e2.reach, rfl, rfl, by decide +kernel, rfl, by decide +kernel, by decide +kernel, by decide +kernel⟩

end Verif.BF
