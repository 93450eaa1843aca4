import Verif.Boolf.Core

/-! # The constructor from truth tables; truth tables for sets of atoms; operators -/

namespace Verif.BF
open Verif.Py Verif.BV Verif.P Verif.W
open Verif.A hiding Mat

theorem countP_lt_of_pairwise {α : Type} [LinearOrder α] {U : List α} (hU : U.Pairwise (· < ·)) {i : Nat} {x : α} (h : U[i]? = some x) :
    U.countP (fun y => decide (y < x)) = i := by
  induction U generalizing i with
  | nil => cases h
  | cons u U ih =>
    rw [List.pairwise_cons] at hU
    cases i with
    | zero =>
      obtain rfl : u = x := by simpa using h
      rw [List.countP_eq_zero]
      intro y hy
      rcases List.mem_cons.1 hy with rfl | hy
      · simp
      · simpa using (hU.1 y hy).le
    | succ i =>
      have h' : U[i]? = some x := by simpa using h
      rw [List.countP_cons_of_pos (by simpa using hU.1 x (List.mem_of_getElem? h')), ih hU.2 h']

theorem sortedI_pairwise {l : List Int} (h : l.Nodup) : (l.insertionSort (· ≤ ·)).Pairwise (· < ·) := by
  have h1 := List.pairwise_insertionSort (· ≤ · : Int → Int → Prop) l
  have h2 : (l.insertionSort (· ≤ ·)).Nodup := (List.perm_insertionSort _ l).nodup_iff.2 h
  exact (h1.and h2).imp (fun h => lt_of_le_of_ne h.1 h.2)

theorem tt_atoms_eq {f : Boolf} (h : Sound f) {l : List Int} (hl : ∀ x ∈ f.atomvals, (x : Int) ∈ l) :
    ∃ r, f.tt (.atoms l) = .ok r ∧ r.length = 2 ^ (l.dedup.insertionSort (· ≤ ·)).length ∧
      ∀ a : Int → Bool, r.vector.getD (valB ((l.dedup.insertionSort (· ≤ ·)).map a)) false = f.eval (fun x : Nat => a (x : Int)) := by
  set U := l.dedup.insertionSort (· ≤ ·) with hUdef
  set aliens := (l.dedup.filter fun a => !(f.atomvals.map Int.ofNat).contains a).insertionSort (· ≤ ·) with haliens
  have hU : U.Pairwise (· < ·) := sortedI_pairwise (List.nodup_dedup l)
  have hUnd : U.Nodup := hU.imp (fun h => ne_of_lt h)
  have hmemU : ∀ x, x ∈ U ↔ x ∈ l := fun x => by rw [hUdef, (List.perm_insertionSort _ _).mem_iff, List.mem_dedup]
  have hcit : (f.atomvals.map Int.ofNat).Pairwise (· < ·) := by
    rw [List.pairwise_map]; exact h.asc.imp (fun h => by simpa using h)
  have hperm : U.Perm (f.atomvals.map Int.ofNat ++ aliens) := by
    rw [List.perm_ext_iff_of_nodup hUnd]
    · intro x
      rw [hmemU, List.mem_append, haliens, mem_dedup_filter, List.mem_map]
      constructor
      · intro hx
        by_cases hc : ∃ a ∈ f.atomvals, Int.ofNat a = x
        · exact Or.inl hc
        · exact Or.inr ⟨hx, fun y hy hyx => hc ⟨y, hy, hyx⟩⟩
      · rintro (⟨y, hy, rfl⟩ | ⟨hx, _⟩)
        · exact hl y hy
        · exact hx
    · rw [List.nodup_append]
      refine ⟨hcit.imp (fun h => ne_of_lt h), ?_, ?_⟩
      · exact (List.perm_insertionSort _ _).nodup_iff.2 ((List.nodup_dedup l).filter _)
      · intro x hx y hy hxy
        obtain ⟨z, hz, rfl⟩ := List.mem_map.1 hx
        exact (mem_dedup_filter.1 hy).2 z hz hxy
  have hwork : ∀ (k x : Nat), f.atomvals[k]? = some x → ∃ p : Nat, (workAtomvals f.atomvals aliens)[k]? = some p ∧ U[p]? = some (x : Int) := by
    intro k x hk
    refine ⟨k + aliens.countP (fun y => decide (y < (x : Int))), ?_, ?_⟩
    · rw [workAtomvals_eq, List.getElem?_map, List.getElem?_zipIdx, hk]; simp
    · obtain ⟨i, hi⟩ := List.mem_iff_getElem?.1 ((hmemU x).2 (hl x (List.mem_of_getElem? hk)))
      have e1 := countP_lt_of_pairwise hU hi
      have e2 := countP_lt_of_pairwise hcit (i := k) (x := (x : Int)) (by rw [List.getElem?_map, hk]; rfl)
      rw [hperm.countP_eq, List.countP_append, e2] at e1
      rw [e1, hi]
  have hwl : (workAtomvals f.atomvals aliens).length = f.atomvals.length := by rw [workAtomvals_eq]; simp
  have hWnd : (workAtomvals f.atomvals aliens).Nodup := by
    rw [List.nodup_iff_getElem?_ne_getElem?]
    intro i j hij hj hc
    rw [hwl] at hj
    obtain ⟨p, p1, p2⟩ := hwork i _ (List.getElem?_eq_getElem (by omega))
    obtain ⟨q, q1, q2⟩ := hwork j _ (List.getElem?_eq_getElem (by omega))
    rw [p1, q1] at hc
    have : p = q := by simpa using hc
    rw [this, q2] at p2
    have h3 : f.atomvals[j] = f.atomvals[i] := by simpa using p2
    have := (List.pairwise_iff_getElem.1 h.asc) i j (by omega) (by omega) hij
    omega
  obtain ⟨b, b1, b2⟩ := lookup hWnd
  have hUl : U.length = l.dedup.length := (List.perm_insertionSort _ _).length_eq
  have hidx : ∀ (a : Int → Bool), valB ((workAtomvals f.atomvals aliens).map (valB (U.map a)).testBit) = valB (f.atomvals.map fun x : Nat => a (x : Int)) := by
    intro a
    apply Nat.eq_of_testBit_eq
    intro k
    rw [testBit_valB_map, testBit_valB_map]
    by_cases hk : k < f.atomvals.length
    · obtain ⟨p, p1, p2⟩ := hwork k _ (List.getElem?_eq_getElem hk)
      rw [p1, List.getElem?_eq_getElem hk, Option.map_some, testBit_valB_map, p2]; rfl
    · rw [List.getElem?_eq_none (by omega), List.getElem?_eq_none (by omega)]; rfl
  have hget : ∀ key : Nat, ∃ v, f.root.getItem (valB ((workAtomvals f.atomvals aliens).map key.testBit)) = .ok v := by
    intro key
    have hlt : valB ((workAtomvals f.atomvals aliens).map key.testBit) < f.root.length := by
      unfold Binv.length; rw [h.len, ← hwl]; exact valB_map_lt _ _
    exact ⟨_, getItem_ok hlt⟩
  choose g hg using hget
  refine ⟨⟨(List.range (2 ^ U.length)).map g⟩, ?_, by simp [Binv.length], fun a => ?_⟩
  · unfold Boolf.tt
    simp only
    rw [if_pos (by rw [List.all_eq_true]; intro x hx; rw [List.contains_iff_mem]; exact hl x hx)]
    simp only [bind, Except.bind]
    rw [b1]
    simp only
    rw [sierpinskiRow_eq]
    simp only
    rw [← hUl, mapM_ok (g := g)]
    · exact ofBools_eq _
    · intro key _
      have := b2 key
      rw [← haliens]
      rw [this]
      exact hg key
  · have hlt := valB_map_lt U a
    rw [List.getD_eq_getElem?_getD, List.getElem?_map, List.getElem?_range hlt]
    have h1 := hg (valB (U.map a))
    rw [hidx, root_getItem h] at h1
    exact (Except.ok.inj h1).symm

/-- what holds for all accepted objects without `skip_deflation` -/
structure Canon (f : Boolf) : Prop extends Sound f where
  const : f.isConstant = decide (f.atomvals = [])
  infl : f.isInflated = false
  ess : ∀ k < f.atomvals.length, Ess f.root.vector (f.atomvals.length - 1) k

theorem sound_const (b : Bool) : Sound (setConstant b) := ⟨List.Pairwise.nil, rfl, rfl, by simp [setConstant]⟩

theorem canon_const (b : Bool) : Canon (setConstant b) := ⟨sound_const b, rfl, rfl, by simp [setConstant]⟩

theorem eval_const (b : Bool) (a : Nat → Bool) : (setConstant b).eval a = b := by cases b <;> rfl

theorem pyMaxNat_ok {l : List Nat} (h : l ≠ []) : ∃ m, pyMaxNat l = .ok m ∧ m ∈ l ∧ ∀ y ∈ l, y ≤ m := by
  cases l with
  | nil => exact absurd rfl h
  | cons x xs =>
    refine ⟨_, rfl, ?_⟩
    clear h
    have key : ∀ (xs : List Nat) (x : Nat), (xs.foldl max x = x ∨ xs.foldl max x ∈ xs) ∧ x ≤ xs.foldl max x ∧ ∀ y ∈ xs, y ≤ xs.foldl max x := by
      intro xs
      induction xs with
      | nil => intro x; simp
      | cons y ys ih =>
        intro x
        obtain ⟨h1, h2, h3⟩ := ih (max x y)
        rw [List.foldl_cons]
        refine ⟨?_, by omega, ?_⟩
        · rcases h1 with h1 | h1
          · rw [h1]
            rcases le_total x y with h | h
            · right; rw [max_eq_right h]; exact List.mem_cons_self
            · left; exact max_eq_left h
          · right; exact List.mem_cons_of_mem _ h1
        · intro z hz
          rcases List.mem_cons.1 hz with rfl | hz
          · omega
          · exact h3 z hz
    obtain ⟨h1, h2, h3⟩ := key xs x
    refine ⟨?_, ?_⟩
    · rcases h1 with h1 | h1
      · rw [h1]; exact List.mem_cons_self
      · exact List.mem_cons_of_mem _ h1
    · intro y hy
      rcases List.mem_cons.1 hy with rfl | hy
      · exact h2
      · exact h3 y hy

theorem pyMin_ok {l : List Int} (h : l ≠ []) : ∃ m, pyMin l = .ok m ∧ m ∈ l ∧ ∀ y ∈ l, m ≤ y := by
  cases l with
  | nil => exact absurd rfl h
  | cons x xs =>
    refine ⟨_, rfl, ?_⟩
    clear h
    have key : ∀ (xs : List Int) (x : Int), (xs.foldl min x = x ∨ xs.foldl min x ∈ xs) ∧ xs.foldl min x ≤ x ∧ ∀ y ∈ xs, xs.foldl min x ≤ y := by
      intro xs
      induction xs with
      | nil => intro x; simp
      | cons y ys ih =>
        intro x
        obtain ⟨h1, h2, h3⟩ := ih (min x y)
        rw [List.foldl_cons]
        refine ⟨?_, by omega, ?_⟩
        · rcases h1 with h1 | h1
          · rw [h1]
            rcases le_total x y with h | h
            · left; exact min_eq_left h
            · right; rw [min_eq_right h]; exact List.mem_cons_self
          · right; exact List.mem_cons_of_mem _ h1
        · intro z hz
          rcases List.mem_cons.1 hz with rfl | hz
          · omega
          · exact h3 z hz
    obtain ⟨h1, h2, h3⟩ := key xs x
    refine ⟨?_, ?_⟩
    · rcases h1 with h1 | h1
      · rw [h1]; exact List.mem_cons_self
      · exact List.mem_cons_of_mem _ h1
    · intro y hy
      rcases List.mem_cons.1 hy with rfl | hy
      · exact h2
      · exact h3 y hy

theorem weight_le (v : List Bool) : (v.map Bool.toNat).sum ≤ v.length := by
  induction v with
  | nil => simp
  | cons x v ih => cases x <;> simp <;> omega

theorem weight_zero {v : List Bool} : (v.map Bool.toNat).sum = 0 ↔ ∀ b ∈ v, b = false := by
  induction v with
  | nil => simp
  | cons x v ih => cases x <;> simp [ih]

theorem weight_full {v : List Bool} : (v.map Bool.toNat).sum = v.length ↔ ∀ b ∈ v, b = true := by
  induction v with
  | nil => simp
  | cons x v ih =>
    have := weight_le v
    cases x
    · simp; omega
    · rw [List.map_cons, List.sum_cons, List.length_cons, List.forall_mem_cons, ← ih]
      simp only [Bool.toNat_true, true_and]
      omega

theorem getD_all {v : List Bool} {b : Bool} (h : ∀ x ∈ v, x = b) {i : Nat} (hi : i < v.length) : v.getD i false = b := by
  rw [List.getD_eq_getElem?_getD, List.getElem?_eq_getElem hi]
  exact h _ (List.getElem_mem _)

/-- the common tail of the constructor -/
theorem deflated_spec {b : Binv} {A : List Nat} (hA : A.Pairwise (· < ·)) (hb : b.length = 2 ^ A.length)
    (hw : ¬ (b.weight = 0 ∨ b.weight = b.length)) :
    ∃ c A' m, deflate b A = .ok (c, A') ∧ pyMaxNat A' = .ok m ∧ Canon ⟨c, A', A'.length, m + 1, false, false⟩ ∧
      ∀ a : Nat → Bool, c.vector.getD (valB (A'.map a)) false = b.vector.getD (valB (A.map a)) false := by
  obtain ⟨c, A', h1, h2, h3, h4, h5⟩ := deflate_spec b A hb
  have hne : A' ≠ [] := by
    rintro rfl
    apply hw
    have hall : ∀ i < b.vector.length, b.vector.getD i false = c.vector.getD 0 false := by
      intro i hi
      have hi' : i < 2 ^ A.length := by rw [← hb]; exact hi
      have hA' : A.Nodup := hA.imp (fun h => Nat.ne_of_lt h)
      have e : valB (A.map fun x => i.testBit (A.idxOf x)) = i := by
        apply Nat.eq_of_testBit_eq
        intro k
        rw [testBit_valB_map]
        by_cases hk : k < A.length
        · rw [List.getElem?_eq_getElem hk, Option.map_some, hA'.idxOf_getElem]; rfl
        · rw [List.getElem?_eq_none (by omega), Nat.testBit_lt_two_pow (lt_of_lt_of_le hi' (Nat.pow_le_pow_right (by omega) (by omega)))]; rfl
      rw [← e, ← h4]; rfl
    have hall2 : ∀ x ∈ b.vector, x = c.vector.getD 0 false := by
      intro x hx
      obtain ⟨i, hi⟩ := List.mem_iff_getElem?.1 hx
      rw [← hall i (getElem?_some_lt hi), List.getD_eq_getElem?_getD, hi]; rfl
    cases hc : c.vector.getD 0 false with
    | false => left; rw [hc] at hall2; exact weight_zero.2 hall2
    | true => right; rw [hc] at hall2; exact weight_full.2 hall2
  obtain ⟨m, m1, m2, m3⟩ := pyMaxNat_ok hne
  refine ⟨c, A', m, h1, m1, ⟨⟨hA.sublist h3, h2, rfl, fun n => ?_⟩, ?_, rfl, h5⟩, h4⟩
  · constructor
    · intro h x hx
      have := m3 x hx
      simp only at h
      omega
    · intro h
      exact h m m2
  · simp [hne]

theorem dedup_length_iff {l : List Int} : l.dedup.length = l.length ↔ l.Nodup := by
  constructor
  · intro h
    have := (List.dedup_sublist l).eq_of_length h
    rw [← this]; exact List.nodup_dedup l
  · intro h; rw [List.dedup_eq_self.2 h]

theorem nodup_toNat {A : List Int} (h : A.Nodup) (h0 : ∀ x ∈ A, 0 ≤ x) : (A.map Int.toNat).Nodup := by
  rw [List.nodup_map_iff_inj_on h]
  intro x hx y hy hxy
  have := h0 x hx
  have := h0 y hy
  omega

theorem sorted_pairwise_lt {A : List Nat} (h : A.Nodup) : (sorted A).Pairwise (· < ·) := by
  have h1 := sorted_pairwise A
  have h2 : (sorted A).Nodup := (sorted_perm A).nodup_iff.2 h
  exact (h1.and h2).imp (fun h => lt_of_le_of_ne h.1 h.2)

theorem const_value {b : Binv} (hw : b.weight = 0 ∨ b.weight = b.length) {i : Nat} (hi : i < b.length) :
    b.vector.getD i false = decide (b.weight ≠ 0) := by
  rcases hw with hw | hw
  · rw [getD_all (weight_zero.1 hw) hi]; simp [hw]
  · rw [getD_all (weight_full.1 hw) hi]
    have : b.weight ≠ 0 := by omega
    simp [this]

/-- `Boolf(table, atoms)` for distinct natural atoms and a table of the right length -/
theorem ttDeflated_some {b : Binv} {A : List Int} {L : List Nat} (hA : A.Nodup) (h0 : ∀ x ∈ A, 0 ≤ x) (hb : b.length = 2 ^ A.length)
    (hL : ReadOrder (A.map Int.toNat) L) :
    ∃ f, ttDeflated b (some A) = .ok f ∧ Canon f ∧ ∀ a, f.eval a = b.vector.getD (valB (L.map a)) false := by
  have hpos : b.length > 0 := by rw [hb]; exact Nat.two_pow_pos _
  have hLlt : ∀ a : Nat → Bool, valB (L.map a) < b.length := by
    intro a
    have := valB_map_lt L a
    rwa [hL.1, List.length_map, ← hb] at this
  unfold ttDeflated ttCheck
  simp only [bind, Except.bind, dedup_length_iff.2 hA, hb, if_true, pure, Except.pure]
  rw [← hb, if_pos hpos]
  simp only
  by_cases hw : b.weight = 0 ∨ b.weight = b.length
  · rw [if_pos hw]
    exact ⟨_, rfl, canon_const _, fun a => by rw [eval_const, const_value hw (hLlt a)]⟩
  · rw [if_neg hw]
    have hne : A ≠ [] := by
      rintro rfl
      apply hw
      have e : b.length = 1 := by simpa using hb
      have := weight_le b.vector
      unfold Binv.length at e
      unfold Binv.weight Binv.length
      omega
    obtain ⟨m, m1, m2, _⟩ := pyMin_ok hne
    have hb' : b.length = 2 ^ (A.map Int.toNat).length := by rw [List.length_map]; exact hb
    obtain ⟨c, c1, c2, c3⟩ := reorder_spec (nodup_toNat hA h0) hb' hL
    have hcw : ¬ (c.weight = 0 ∨ c.weight = c.length) := by
      intro hc
      apply hw
      have hconst : ∀ x ∈ b.vector, x = decide (c.weight ≠ 0) := by
        intro x hx
        obtain ⟨i, hi⟩ := List.mem_iff_getElem?.1 hx
        have hi' : i < b.length := getElem?_some_lt hi
        have hLn : L.Nodup := by
          obtain ⟨M, M1, M2⟩ := readOrder_exists (nodup_toNat hA h0)
          rw [hL.unique M1]; exact M2.nodup_iff.2 (nodup_toNat hA h0)
        have e : valB (L.map fun x => i.testBit (L.idxOf x)) = i := by
          apply Nat.eq_of_testBit_eq
          intro k
          rw [testBit_valB_map]
          by_cases hk : k < L.length
          · rw [List.getElem?_eq_getElem hk, Option.map_some, hLn.idxOf_getElem]; rfl
          · rw [List.getElem?_eq_none (by omega), Nat.testBit_lt_two_pow (lt_of_lt_of_le (by rw [← hb']; exact hi')
              (Nat.pow_le_pow_right (by omega) (by rw [← hL.1]; omega)))]; rfl
        have h5 := c3 (fun x => i.testBit (L.idxOf x))
        rw [e] at h5
        have h6 : b.vector.getD i false = x := by rw [List.getD_eq_getElem?_getD, hi]; rfl
        rw [← h6, ← h5]
        apply const_value hc
        rw [c2, hb', ← (sorted_perm (A.map Int.toNat)).length_eq]
        exact valB_map_lt _ _
      cases hd : decide (c.weight ≠ 0) with
      | false => left; rw [hd] at hconst; exact weight_zero.2 hconst
      | true => right; rw [hd] at hconst; exact weight_full.2 hconst
    obtain ⟨d, A', m', d1, d2, d3, d4⟩ := deflated_spec (sorted_pairwise_lt (nodup_toNat hA h0))
      (by rw [c2, hb', (sorted_perm _).length_eq]) hcw
    refine ⟨⟨d, A', A'.length, m' + 1, false, false⟩, ?_, d3, fun a => ?_⟩
    · unfold ttAtoms
      simp only [m1]
      rw [if_pos (h0 m m2), c1]
      simp only
      rw [d1]
      simp only
      rw [d2]
    · unfold Boolf.eval
      simp only
      rw [d4, c3]

theorem isPowerOfTwo_iff {x : Nat} : isPowerOfTwo x = true ↔ ∃ n, x = 2 ^ n := by
  unfold isPowerOfTwo
  rw [decide_eq_true_eq]
  constructor
  · rintro ⟨_, h⟩; exact ⟨_, h.symm⟩
  · rintro ⟨n, rfl⟩
    exact ⟨by have := Nat.two_pow_pos n; omega, by rw [Nat.log2_two_pow]⟩

/-- `Boolf(table)` for a table whose length is a power of two -/
theorem ttDeflated_none {b : Binv} {n : Nat} (hb : b.length = 2 ^ n) :
    ∃ f, ttDeflated b none = .ok f ∧ Canon f ∧ ∀ a, f.eval a = b.vector.getD (valB ((List.range n).map a)) false := by
  have hpos : b.length > 0 := by rw [hb]; exact Nat.two_pow_pos _
  unfold ttDeflated ttCheck
  simp only [bind, Except.bind, hpos, if_true, pure, Except.pure]
  by_cases hw : b.weight = 0 ∨ b.weight = b.length
  · rw [if_pos hw]
    refine ⟨_, rfl, canon_const _, fun a => by rw [eval_const, const_value hw]; rw [hb]; have := valB_map_lt (List.range n) a; simpa using this⟩
  · rw [if_neg hw]
    obtain ⟨d, A', m', d1, d2, d3, d4⟩ := deflated_spec (A := List.range n) List.pairwise_lt_range (by simpa using hb) hw
    refine ⟨⟨d, A', A'.length, m' + 1, false, false⟩, ?_, d3, fun a => ?_⟩
    · unfold ttAtoms logInt
      rw [if_pos (isPowerOfTwo_iff.2 ⟨n, hb⟩), hb, Nat.log2_two_pow]
      simp only
      rw [d1]
      simp only
      rw [d2]
    · exact d4 a

end Verif.BF
