import Verif.Binv.Model
import Verif.Py.Lemmas

/-! # Closed forms of the `Binv` model -/

namespace Verif.BV
open Verif.Py

theorem mapM_except_map {α β γ : Type} {e : Type} (f : β → Except e γ) (g : α → β) (h : α → γ) (l : List α)
    (hf : ∀ a ∈ l, f (g a) = .ok (h a)) : (l.map g).mapM f = .ok (l.map h) := by
  induction l with
  | nil => rfl
  | cons a l ih =>
    rw [List.map_cons, List.mapM_cons, hf a (by simp), ih (fun a ha => hf a (by simp [ha]))]
    rfl

theorem ofBools_eq (v : List Bool) : ofBools v = .ok ⟨v⟩ := by
  unfold ofBools mk mkVector
  simp only [Option.isNone_none, if_true]
  rw [mapM_except_map _ _ id _ (by intro a _; cases a <;> rfl)]
  simp

theorem toStr_eq (v : List Bool) : toStr v = v.map (fun b => if b then '1' else '0') := by
  unfold toStr
  have : ∀ (w : List Char) (v : List Bool), v.foldl (fun r e => r ++ [if e then '1' else '0']) w =
      w ++ v.map (fun b => if b then '1' else '0') := by
    intro w v
    induction v generalizing w with
    | nil => simp
    | cons b v ih => rw [List.foldl_cons, ih]; simp
  rw [this]; simp

theorem string_eq (b : Binv) : b.string = b.vector.map (fun b => if b then '1' else '0') := toStr_eq _

theorem mk_string (b : Binv) : mk { vector := some (.str b.string) } = .ok b := by
  unfold mk mkVector
  simp only [Option.isNone_none, if_true]
  rw [List.filter_eq_self.2, string_eq, mapM_except_map _ _ id _ (by intro a _; cases a <;> rfl)]
  · simp
  · intro c hc
    rw [string_eq] at hc
    obtain ⟨x, _, rfl⟩ := List.mem_map.1 hc
    cases x <;> rfl

theorem intBase2_reverse (v : List Bool) : intBase2 (v.map (fun b => if b then '1' else '0')).reverse = valB v := by
  unfold intBase2
  rw [List.foldl_reverse]
  induction v with
  | nil => rfl
  | cons b v ih => rw [List.map_cons, List.foldr_cons, ih, valB]; cases b <;> simp; omega

theorem intval_eq (b : Binv) : b.intval = valB b.vector := by
  unfold Binv.intval
  split
  · rename_i h
    rw [string_eq, List.map_eq_nil_iff] at h
    rw [h]; rfl
  · rw [string_eq, intBase2_reverse]

theorem mem_exposet {b : Binv} {i : Nat} : i ∈ b.exposet ↔ b.vector[i]? = some true := by
  unfold Binv.exposet
  simp only [List.mem_map, List.mem_filter, Prod.exists]
  constructor
  · rintro ⟨x, y, ⟨h1, h2⟩, rfl⟩
    rw [List.mem_zipIdx_iff_getElem?] at h1
    simp only at h1 h2
    rw [h1, h2]
  · intro h
    exact ⟨true, i, ⟨List.mem_zipIdx_iff_getElem?.2 h, rfl⟩, rfl⟩

theorem exposet_pairwise (b : Binv) : b.exposet.Pairwise (· < ·) := by
  unfold Binv.exposet
  rw [List.pairwise_map]
  refine List.Pairwise.sublist (List.filter_sublist) ?_
  have : (b.vector.zipIdx.map Prod.snd).Pairwise (· < ·) := by
    rw [List.zipIdx_map_snd]
    exact List.pairwise_lt_range'
  rwa [List.pairwise_map] at this

theorem exposet_cons (x : Bool) (v : List Bool) :
    (⟨x :: v⟩ : Binv).exposet = (if x then [0] else []) ++ (⟨v⟩ : Binv).exposet.map (· + 1) := by
  unfold Binv.exposet
  simp only [List.zipIdx_cons', List.filter_cons, List.filter_map]
  cases x <;> simp [List.map_map, Function.comp_def]

theorem weight_eq (b : Binv) : b.weight = b.exposet.length := by
  obtain ⟨v⟩ := b
  unfold Binv.weight
  induction v with
  | nil => rfl
  | cons x v ih =>
    rw [exposet_cons]
    simp only [List.map_cons, List.sum_cons, List.length_append, List.length_map] at *
    rw [ih]; cases x <;> simp

theorem intval_sum (b : Binv) : b.intval = (b.exposet.map (2 ^ ·)).sum := by
  rw [intval_eq]
  obtain ⟨v⟩ := b
  induction v with
  | nil => rfl
  | cons x v ih =>
    rw [exposet_cons]
    simp only [valB, List.map_append, List.sum_append, List.map_map] at *
    rw [ih]
    have : ∀ l : List Nat, (l.map ((2 ^ ·) ∘ (· + 1))).sum = 2 * (l.map (2 ^ ·)).sum := by
      intro l
      induction l with
      | nil => rfl
      | cons a l ih => simp only [List.map_cons, List.sum_cons, Function.comp, Nat.pow_succ] at *; omega
    rw [this]; cases x <;> simp

theorem complement_eq (b : Binv) : b.complement = .ok ⟨b.vector.map (!·)⟩ := ofBools_eq _

theorem getItem_ok {b : Binv} {i : Nat} (h : i < b.length) : b.getItem i = .ok (b.vector[i]'h) := by
  unfold Binv.getItem
  rw [List.getElem?_eq_getElem h]

theorem mapM_range_ok {α ε : Type} (f : Nat → Except ε α) (g : Nat → α) (n : Nat) (h : ∀ i < n, f i = .ok (g i)) :
    (List.range n).mapM f = .ok ((List.range n).map g) := by
  have : ∀ l : List Nat, (∀ i ∈ l, i < n) → l.mapM f = .ok (l.map g) := by
    intro l hl
    induction l with
    | nil => rfl
    | cons a l ih =>
      rw [List.mapM_cons, h a (hl a (by simp)), ih (fun i hi => hl i (by simp [hi]))]
      rfl
  exact this _ (fun i hi => List.mem_range.1 hi)

theorem bitwise_eq (op : Bool → Bool → Bool) (b c : Binv) (h : b.length ≤ c.length) :
    b.bitwise op c = .ok ⟨List.zipWith op b.vector c.vector⟩ := by
  unfold Binv.bitwise
  rw [mapM_range_ok _ (fun i => op (b.vector.getD i false) (c.vector.getD i false))]
  · simp only
    rw [ofBools_eq]
    congr 2
    apply List.ext_getElem?
    intro i
    unfold Binv.length at h
    simp only [List.getElem?_map, List.getElem?_zipWith, List.getD_eq_getElem?_getD]
    by_cases hi : i < b.vector.length
    · have hi' : i < c.vector.length := by omega
      rw [List.getElem?_range (by exact hi)]
      simp [List.getElem?_eq_getElem hi, List.getElem?_eq_getElem hi']
    · rw [List.getElem?_eq_none (by simp [Binv.length]; omega), List.getElem?_eq_none (by omega)]
      rfl
  · intro i hi
    have hi' : i < c.length := by omega
    rw [getItem_ok hi, getItem_ok hi']
    unfold Binv.length at hi hi'
    simp only [List.getD_eq_getElem?_getD, List.getElem?_eq_getElem hi, List.getElem?_eq_getElem hi']
    rfl

theorem bitwise_error (op : Bool → Bool → Bool) (b c : Binv) (h : c.length < b.length) :
    b.bitwise op c = .error .indexError := by
  unfold Binv.bitwise
  have : ∀ l : List Nat, (∀ i ∈ l, i < b.length) → c.length ∈ l →
      l.mapM (fun i => do return op (← b.getItem i) (← c.getItem i)) = (.error .indexError : Except Err (List Bool)) := by
    intro l hl hc
    induction l with
    | nil => simp at hc
    | cons a l ih =>
      rw [List.mapM_cons, getItem_ok (hl a (by simp))]
      by_cases ha : a < c.length
      · rw [getItem_ok ha]
        have h1 := ih (fun i hi => hl i (by simp [hi])) (by
          rcases List.mem_cons.1 hc with h2 | h2
          · omega
          · exact h2)
        rw [h1]; rfl
      · have : c.getItem a = .error .indexError := by
          unfold Binv.getItem; rw [List.getElem?_eq_none (by unfold Binv.length at ha; omega)]
        rw [this]; rfl
  rw [this _ (fun i hi => List.mem_range.1 hi) (List.mem_range.2 h)]

/-- The result of `bitwise_smaller` for vectors of equal length. -/
theorem smallerLoop_eq (b c : Binv) (h : b.length = c.length) (l : List Nat) (hl : ∀ i ∈ l, i < b.length) :
    smallerLoop b c l = .ok (decide (∀ i ∈ l, i ∈ b.exposet → i ∈ c.exposet)) := by
  induction l with
  | nil => simp [smallerLoop]
  | cons i l ih =>
    have hi := hl i (by simp)
    have hi' : i < c.length := by omega
    rw [smallerLoop, getItem_ok hi, getItem_ok hi', ih (fun i hi => hl i (by simp [hi]))]
    have hb : i ∈ b.exposet ↔ b.vector[i]'hi = true := by rw [mem_exposet, List.getElem?_eq_getElem hi]; simp
    have hc : i ∈ c.exposet ↔ c.vector[i]'hi' = true := by rw [mem_exposet, List.getElem?_eq_getElem hi']; simp
    simp only [List.mem_cons, forall_eq_or_imp, hb, hc]
    cases b.vector[i]'hi <;> cases c.vector[i]'hi' <;> simp

/-! ## Numerals -/

theorem binaryLength_le (n L : Nat) : binaryLength n ≤ L ↔ n < 2 ^ L := length_binLoop n n le_rfl L

theorem length_binLE (n : Nat) (hn : n ≠ 0) : (binLE n).length = binaryLength n := by
  unfold binLE binaryLength; rw [if_neg hn]

theorem length_zfill (n : Nat) (L : Int) (h : (binaryLength n : Int) ≤ L) (h0 : 0 < L) :
    (zfillLE (binLE n) L).length = L.toNat := by
  unfold zfillLE
  rw [List.length_append, List.length_replicate]
  by_cases hn : n = 0
  · subst hn; simp only [binLE, if_true, List.length_singleton]; omega
  · rw [length_binLE n hn]; omega

theorem valB_zfill (n : Nat) (L : Int) : valB (zfillLE (binLE n) L) = n := by
  unfold zfillLE; rw [valB_append, valB_replicate_false, valB_binLE]; simp

/-! ## Exposets -/

theorem foldl_max_spec (xs : List Int) (x : Int) :
    (xs.foldl max x = x ∨ xs.foldl max x ∈ xs) ∧ x ≤ xs.foldl max x ∧ ∀ y ∈ xs, y ≤ xs.foldl max x := by
  induction xs generalizing x with
  | nil => simp
  | cons z xs ih =>
    rw [List.foldl_cons]
    obtain ⟨h1, h2, h3⟩ := ih (max x z)
    refine ⟨?_, by omega, ?_⟩
    · rcases h1 with h1 | h1
      · rw [h1]
        rcases Int.le_total x z with h | h
        · rw [max_eq_right h]; simp
        · rw [max_eq_left h]; simp
      · right; simp [h1]
    · intro y hy
      rcases List.mem_cons.1 hy with rfl | hy
      · omega
      · exact h3 y hy

theorem pyMax_ok {l : List Int} (h : l ≠ []) : ∃ m, pyMax l = .ok m ∧ m ∈ l ∧ ∀ y ∈ l, y ≤ m := by
  cases l with
  | nil => exact absurd rfl h
  | cons x xs =>
    obtain ⟨h1, h2, h3⟩ := foldl_max_spec xs x
    refine ⟨_, rfl, ?_, ?_⟩
    · rcases h1 with h1 | h1
      · rw [h1]; simp
      · simp [h1]
    · intro y hy
      rcases List.mem_cons.1 hy with rfl | hy
      · exact h2
      · exact h3 y hy

theorem setAll_ok (l : List Int) (v : List Bool) (h : ∀ x ∈ l, 0 ≤ x ∧ x < v.length) :
    ∃ w, setAll l v = .ok w ∧ w.length = v.length ∧
      ∀ i : Nat, w[i]? = if (i : Int) ∈ l then some true else v[i]? := by
  induction l generalizing v with
  | nil => exact ⟨v, rfl, rfl, by simp⟩
  | cons x l ih =>
    obtain ⟨h1, h2⟩ := h x (by simp)
    rw [setAll, setTrue, if_pos h1, if_pos h2]
    obtain ⟨w, e1, e2, e3⟩ := ih (v.set x.toNat true) (by
      intro y hy; rw [List.length_set]; exact h y (by simp [hy]))
    refine ⟨w, e1, by rw [e2, List.length_set], ?_⟩
    intro i
    rw [e3, List.getElem?_set]
    by_cases hi : (i : Int) ∈ l
    · simp [hi]
    · by_cases hx : (i : Int) = x
      · have : x.toNat = i := by omega
        have h3 : i < v.length := by omega
        simp [hx, this, h3]
      · have : x.toNat ≠ i := by omega
        simp [hi, hx, this]

theorem fromExposet_ok (l : List Int) (L : Int) (h : ∀ x ∈ l, 0 ≤ x ∧ x < L) :
    ∃ b, fromExposet l L = .ok b ∧ b.length = L.toNat ∧ ∀ i : Nat, i ∈ b.exposet ↔ (i : Int) ∈ l := by
  obtain ⟨w, e1, e2, e3⟩ := setAll_ok l (List.replicate L.toNat false) (by
    intro x hx; have := h x hx; rw [List.length_replicate]; omega)
  unfold fromExposet
  rw [e1]
  refine ⟨⟨w⟩, rfl, by rw [Binv.length, e2, List.length_replicate], ?_⟩
  intro i
  rw [mem_exposet, e3]
  by_cases hi : (i : Int) ∈ l
  · simp [hi]
  · simp [hi, List.getElem?_replicate]

/-- A vector is determined by its length and its exposet. -/
theorem ext_exposet {b c : Binv} (hl : b.length = c.length) (h : ∀ i, i ∈ b.exposet ↔ i ∈ c.exposet) : b = c := by
  obtain ⟨v⟩ := b
  obtain ⟨w⟩ := c
  congr 1
  apply List.ext_getElem hl
  intro i h1 h2
  have := h i
  rw [mem_exposet, mem_exposet] at this
  simp only [List.getElem?_eq_getElem h1, List.getElem?_eq_getElem h2, Option.some.injEq] at this
  cases hv : v[i] <;> cases hw : w[i] <;> simp_all

end Verif.BV
