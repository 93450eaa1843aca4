import Verif.Boolf.Props10
import Verif.Perm.Props4

/-!
# Property C77: filtrates for pairs of atoms, relations of atoms
-/

namespace Verif.BF
open Verif.Py Verif.BV Verif.P Verif.W
open Verif.A hiding Mat

/-- The function is true at some key with digit `i` at atom `x` and digit `j` at atom `y`. -/
def Meets (f : Boolf) (x y : Nat) (i j : Bool) : Prop := ∃ key : Nat, f.getItem key = .ok true ∧ key.testBit x = i ∧ key.testBit y = j

open Classical in
/-- Specification of the string for two atoms: entry `i + 2 * j` tells whether the function meets the digits `i` and `j`. -/
noncomputable def pairString (f : Boolf) (x y : Nat) : List Char :=
  [if Meets f x y false false then '1' else '0', if Meets f x y true false then '1' else '0',
   if Meets f x y false true then '1' else '0', if Meets f x y true true then '1' else '0']

theorem Meets.swap {f : Boolf} {x y : Nat} {i j : Bool} : Meets f y x j i ↔ Meets f x y i j :=
  ⟨fun ⟨k, h1, h2, h3⟩ => ⟨k, h1, h3, h2⟩, fun ⟨k, h1, h2, h3⟩ => ⟨k, h1, h3, h2⟩⟩

theorem entry_eq {f : Boolf} (hf : Sound f) {a b x y : Nat} (hx : f.atomvals[a]? = some x) (hy : f.atomvals[b]? = some y) (hxy : x < y) :
    f.filtratedEntry a b = .ok (pairString f x y) := by
  have hS : ([x, y] : List Nat).Pairwise (· < ·) := by simp [hxy]
  obtain ⟨g, g1, g2, g3, g4⟩ := filtrate_asc hf (S := [x, y]) hS (by
    intro z hz
    rcases List.mem_cons.1 hz with rfl | hz
    · exact List.mem_of_getElem? hx
    · rw [List.mem_singleton.1 hz]; exact List.mem_of_getElem? hy)
  have hg : ∀ z ∈ g.atomvals, z ∈ [x, y] := by
    intro z hz
    by_contra hc
    obtain ⟨u, hu⟩ := (g2.mem_iff z).1 hz
    apply hu
    have e : ∀ c, ∀ w ∈ [x, y], upd u z c w = u w := fun c w hw => by unfold upd; rw [if_neg (fun e : w = z => hc (e ▸ hw))]
    rw [Bool.eq_iff_iff, g4, g4]
    constructor
    · rintro ⟨a', h1, h2⟩
      exact ⟨a', h1, fun w hw => by rw [h2 w hw, e _ w hw, e _ w hw]⟩
    · rintro ⟨a', h1, h2⟩
      exact ⟨a', h1, fun w hw => by rw [h2 w hw, e _ w hw, e _ w hw]⟩
  obtain ⟨t, t1, t2, t3⟩ := tt_union g2.toSound hS hg
  have key : ∀ i j : Bool, t.vector.getD (i.toNat + 2 * j.toNat) false = true ↔ Meets f x y i j := by
    intro i j
    have h := t3 (fun z => if z = x then i else j)
    have e : valB (([x, y] : List Nat).map fun z => if z = x then i else j) = i.toNat + 2 * j.toNat := by
      simp [valB, (Nat.ne_of_gt hxy)]
    rw [e] at h
    rw [h, g4]
    unfold Meets
    constructor
    · rintro ⟨a', h1, h2⟩
      obtain ⟨k, k1, k2⟩ := exists_key hf a'
      refine ⟨k, (getItem_true hf k).2 (k1.trans h1), ?_, ?_⟩
      · rw [k2 x (List.mem_of_getElem? hx), h2 x (by simp), if_pos rfl]
      · rw [k2 y (List.mem_of_getElem? hy), h2 y (by simp), if_neg (Nat.ne_of_gt hxy)]
    · rintro ⟨k, h1, h2, h3⟩
      refine ⟨k.testBit, (getItem_true hf k).1 h1, fun z hz => ?_⟩
      rcases List.mem_cons.1 hz with rfl | hz
      · rw [if_pos rfl, h2]
      · rw [List.mem_singleton.1 hz, if_neg (Nat.ne_of_gt hxy), h3]
  unfold Boolf.filtratedEntry
  rw [hx, hy]
  simp only [bind, Except.bind, pure, Except.pure]
  rw [show ([(x : Int), (y : Int)] : List Int) = ([x, y] : List Nat).map Int.ofNat from rfl, g1]
  simp only
  rw [t1]
  simp only [string_eq]
  congr 1
  obtain ⟨v⟩ := t
  have hv : v.length = 4 := t2
  match v, hv with
  | [p, q, r, s], _ =>
    unfold pairString
    have k1 := key false false
    have k2 := key true false
    have k3 := key false true
    have k4 := key true true
    simp at k1 k2 k3 k4
    classical
    simp only [List.map_cons, List.map_nil]
    rw [if_congr k1 rfl rfl, if_congr k2 rfl rfl, if_congr k3 rfl rfl, if_congr k4 rfl rfl]

theorem mem_pairsBelow {n a b : Nat} : (a, b) ∈ pairsBelow n ↔ a < b ∧ b < n := mem_combinations n a b

theorem pairsBelow_nodup (n : Nat) : (pairsBelow n).Nodup := nodup_combinations n

theorem getElem_lt {A : List Nat} (hA : A.Pairwise (· < ·)) {a b x y : Nat} (hx : A[a]? = some x) (hy : A[b]? = some y) (h : a < b) : x < y := by
  obtain ⟨h1, rfl⟩ := List.getElem?_eq_some_iff.1 hx
  obtain ⟨h2, rfl⟩ := List.getElem?_eq_some_iff.1 hy
  exact List.pairwise_iff_getElem.1 hA a b h1 h2 h

theorem pairs_eq {f : Boolf} (hf : Sound f) :
    f.filtratedPairs = .ok ((pairsBelow f.valency).map fun p => (p, pairString f (f.atomvals.getD p.1 0) (f.atomvals.getD p.2 0))) := by
  unfold Boolf.filtratedPairs
  have := mapM_except_map (fun p : Nat × Nat => (do return (p, ← f.filtratedEntry p.1 p.2) : Except Err _)) id
    (fun p => (p, pairString f (f.atomvals.getD p.1 0) (f.atomvals.getD p.2 0))) (pairsBelow f.valency) (fun p hp => by
      obtain ⟨a, b⟩ := p
      have h := mem_pairsBelow.1 hp
      rw [hf.val] at h
      have hx : f.atomvals[a]? = some (f.atomvals.getD a 0) := by
        rw [List.getD_eq_getElem?_getD, List.getElem?_eq_getElem (by omega)]; rfl
      have hy : f.atomvals[b]? = some (f.atomvals.getD b 0) := by
        rw [List.getD_eq_getElem?_getD, List.getElem?_eq_getElem (by omega)]; rfl
      simp only [id]
      rw [entry_eq hf hx hy (getElem_lt hf.asc hx hy h.1)]
      rfl)
  rw [List.map_id] at this
  simp only [bind, Except.bind] at this ⊢
  rw [this]
  simp only [pure, Except.pure]
  congr 1
  apply Dict.ofPairs_of_nodup
  unfold Dict.keys
  rw [List.map_map]
  exact (List.map_id _).symm ▸ pairsBelow_nodup _

/-- **C77.** `filtrated_pairs` has an entry for each pair `a < b` of places of atoms, and no others.  Digit `i + 2 * j` of the entry tells whether
the function is true for some key with digit `i` at the first and digit `j` at the second atom. -/
theorem C77_pairs (f : Boolf) (hf : Obj f) : ∃ d, f.filtratedPairs = .ok d ∧
    (∀ a b x y : Nat, a < b → f.atomvals[a]? = some x → f.atomvals[b]? = some y → d.get? (a, b) = some (pairString f x y)) ∧
    ∀ a b : Nat, ¬ (a < b ∧ b < f.atomvals.length) → d.get? (a, b) = none := by
  have h := hf.good.toSound
  refine ⟨_, pairs_eq h, fun a b x y hab hx hy => ?_, fun a b hab => ?_⟩
  · rw [Dict.get?_iff_mem]
    · refine List.mem_map.2 ⟨(a, b), mem_pairsBelow.2 ⟨hab, ?_⟩, ?_⟩
      · rw [h.val]; exact getElem?_some_lt hy
      · simp only [List.getD_eq_getElem?_getD, hx, hy]; rfl
    · unfold Dict.keys
      rw [List.map_map]
      exact (List.map_id _).symm ▸ pairsBelow_nodup _
  · rw [Dict.get?_eq_none]
    unfold Dict.keys
    rw [List.map_map]
    intro hc
    obtain ⟨p, hp, e⟩ := List.mem_map.1 hc
    have e' : p = (a, b) := e
    rw [e', mem_pairsBelow, h.val] at hp
    exact hab hp

theorem pairGet_nat {f : Boolf} (hf : Obj f) {a b x y : Nat} (hab : a < b) (hx : f.atomvals[a]? = some x) (hy : f.atomvals[b]? = some y) :
    (do pairGet (← f.filtratedPairs) a b) = .ok (pairString f x y) := by
  obtain ⟨d, d1, d2, _⟩ := C77_pairs f hf
  rw [d1]
  simp only [bind, Except.bind]
  unfold pairGet
  rw [if_pos (by omega), Int.toNat_natCast, Int.toNat_natCast, d2 a b x y hab hx hy]

/-- **C77.** `filtrated_pair(a, b)` for `a < b` is the entry of `filtrated_pairs`. -/
theorem C77_pair_ascending (f : Boolf) (hf : Obj f) (a b x y : Nat) (hab : a < b) (hx : f.atomvals[a]? = some x) (hy : f.atomvals[b]? = some y) :
    f.filtratedPair a b = .ok (pairString f x y) := by
  have h1 := getElem?_some_lt hx
  have h2 := getElem?_some_lt hy
  unfold Boolf.filtratedPair
  rw [hf.good.toSound.val, if_pos (by omega), if_pos (by omega), pairGet_nat hf hab hx hy]

/-- the test on line 13 of `filtrated_pair`, and what the result means -/
theorem swap_string (f : Boolf) (x y : Nat) :
    ((pairString f y x = ['1', '0', '1', '1'] ∨ pairString f y x = ['1', '1', '0', '1']) ↔
      Meets f x y false false ∧ Meets f x y true true ∧ ¬ (Meets f x y true false ↔ Meets f x y false true)) ∧
    (pairString f y x = ['1', '0', '1', '1'] ∨ pairString f y x = ['1', '1', '0', '1'] → (pairString f y x).reverse = pairString f x y) ∧
    (pairString f y x = pairString f x y ↔ (Meets f x y true false ↔ Meets f x y false true)) := by
  have s1 : Meets f y x false true = Meets f x y true false := propext Meets.swap
  have s2 : Meets f y x true false = Meets f x y false true := propext Meets.swap
  have s3 : Meets f y x true true = Meets f x y true true := propext Meets.swap
  have s4 : Meets f y x false false = Meets f x y false false := propext Meets.swap
  unfold pairString
  rw [s1, s2, s3, s4]
  by_cases h1 : Meets f x y true false <;> by_cases h2 : Meets f x y false true <;> by_cases h3 : Meets f x y false false <;>
    by_cases h4 : Meets f x y true true <;> simp [h1, h2, h3, h4]

/-- **C77.** `filtrated_pair(a, b)` for `a > b` is the string for the two atoms in this order, unless the function meets exactly one of the
combinations of different digits and not both combinations of equal digits.  In that case it is the string for the atoms in the other order. -/
theorem C77_pair_descending (f : Boolf) (hf : Obj f) (a b x y : Nat) (hab : b < a) (hx : f.atomvals[a]? = some x) (hy : f.atomvals[b]? = some y) :
    ∃ s, f.filtratedPair a b = .ok s ∧
      (s = pairString f x y ↔ ((Meets f x y true false ↔ Meets f x y false true) ∨ (Meets f x y false false ∧ Meets f x y true true))) ∧
      (s ≠ pairString f x y → s = pairString f y x) := by
  have h1 := getElem?_some_lt hx
  have h2 := getElem?_some_lt hy
  obtain ⟨w1, w2, w3⟩ := swap_string f x y
  have e := pairGet_nat hf hab hy hx
  simp only [bind, Except.bind] at e
  unfold Boolf.filtratedPair
  rw [hf.good.toSound.val, if_pos (by omega), if_neg (by omega)]
  simp only [bind, Except.bind, pure, Except.pure]
  obtain ⟨d, d1, _⟩ := C77_pairs f hf
  rw [d1] at e ⊢
  simp only at e ⊢
  rw [e]
  simp only
  split
  · rename_i hc
    refine ⟨_, rfl, ?_, fun hne => absurd (w2 hc) hne⟩
    rw [w2 hc]
    have := w1.1 hc
    exact ⟨fun _ => Or.inr ⟨this.1, this.2.1⟩, fun _ => rfl⟩
  · rename_i hc
    refine ⟨_, rfl, ?_, fun _ => rfl⟩
    rw [w3]
    rw [w1] at hc
    constructor
    · exact Or.inl
    · rintro (h | ⟨h, h'⟩)
      · exact h
      · by_contra hne
        exact hc ⟨h, h', hne⟩

theorem meets_below {f : Boolf} (hf : Sound f) {x y : Nat} (hx : x < f.adicity) (hy : y < f.adicity) (i j : Bool) :
    Meets f x y i j ↔ ∃ k < 2 ^ f.adicity, f.eval (Nat.testBit k) = true ∧ k.testBit x = i ∧ k.testBit y = j := by
  unfold Meets
  constructor
  · rintro ⟨k, h1, h2, h3⟩
    refine ⟨k % 2 ^ f.adicity, Nat.mod_lt _ (Nat.two_pow_pos _), ?_, ?_, ?_⟩
    · rw [eval_mod hf le_rfl]; exact (getItem_true hf k).1 h1
    · rw [Nat.testBit_mod_two_pow, decide_eq_true hx, Bool.true_and, h2]
    · rw [Nat.testBit_mod_two_pow, decide_eq_true hy, Bool.true_and, h3]
  · rintro ⟨k, _, h1, h2⟩
    exact ⟨k, (getItem_true hf k).2 h1, h2⟩

/-- two atoms and a table in which one place is false: the relations that need a missing combination do occur -/
example : ∃ f, Obj f ∧ f.atomvals[0]? = some 0 ∧ f.atomvals[1]? = some 1 ∧
    Meets f 0 1 false false ∧ ¬ Meets f 0 1 true false ∧ Meets f 0 1 false true ∧ Meets f 0 1 true true := by
  have h : newTT (.list [1, 0, 1, 1]) = .ok { atomvals := [0, 1], root := ⟨[true, false, true, true]⟩, adicity := 2, valency := 2 } := by decide
  have hs := (reach_newTT h).canon.toSound
  refine ⟨_, (reach_newTT h).obj, rfl, rfl, ?_, ?_, ?_, ?_⟩ <;> rw [meets_below hs (by decide) (by decide)] <;> decide

/-- **C77.** The result for `a > b` can be wrong: the function `1 and not (0 and 2)` of `Boolf('00110010')` with `a = 1`, `b = 0`. -/
theorem C77_pair_wrong : ∃ f, newTT (.list [0, 0, 1, 1, 0, 0, 1, 0]) = .ok f ∧ f.atomvals = [0, 1, 2] ∧
    f.filtratedPair 1 0 = .ok ['0', '0', '1', '1'] ∧ f.filtratedPair 0 1 = .ok ['0', '0', '1', '1'] ∧ pairString f 1 0 = ['0', '1', '0', '1'] := by
  have h : newTT (.list [0, 0, 1, 1, 0, 0, 1, 0]) =
      .ok { atomvals := [0, 1, 2], root := ⟨[false, false, true, true, false, false, true, false]⟩, adicity := 3, valency := 3 } := by decide
  have hr := reach_newTT h
  have hs := hr.canon.toSound
  have e1 : pairString { atomvals := [0, 1, 2], root := ⟨[false, false, true, true, false, false, true, false]⟩, adicity := 3, valency := 3 } 1 0 =
      ['0', '1', '0', '1'] := by
    unfold pairString
    rw [if_neg, if_pos, if_neg, if_pos] <;> rw [meets_below hs (by decide) (by decide)] <;> decide
  have e2 : pairString { atomvals := [0, 1, 2], root := ⟨[false, false, true, true, false, false, true, false]⟩, adicity := 3, valency := 3 } 0 1 =
      ['0', '0', '1', '1'] := by
    unfold pairString
    rw [if_neg, if_neg, if_pos, if_pos] <;> rw [meets_below hs (by decide) (by decide)] <;> decide
  refine ⟨_, h, rfl, ?_, ?_, e1⟩
  · obtain ⟨s, s1, s2, s3⟩ := C77_pair_descending _ hr.obj 1 0 1 0 (by decide) rfl rfl
    rw [e1, e2] at s3
    rw [show (1 : Int) = ((1 : Nat) : Int) from rfl, show (0 : Int) = ((0 : Nat) : Int) from rfl, s1, s3]
    rw [Ne, ← e1, s2]
    rintro (hc | ⟨hc, _⟩)
    · have := hc.1 ((meets_below hs (by decide) (by decide) _ _).2 (by decide))
      rw [meets_below hs (by decide) (by decide)] at this
      revert this
      decide
    · rw [meets_below hs (by decide) (by decide)] at hc
      revert hc
      decide
  · have := C77_pair_ascending _ hr.obj 0 1 0 1 (by decide) rfl rfl
    rw [e2] at this
    exact this

/-- **C77.** Exceptions of `filtrated_pair`. -/
theorem C77_pair_errors (f : Boolf) (hf : Obj f) (a b : Int) :
    (f.atomvals.length ≤ a ∨ f.atomvals.length ≤ b → f.filtratedPair a b = .error .assertion) ∧
    (a < f.atomvals.length → b < f.atomvals.length → a = b ∨ a < 0 ∨ b < 0 → f.filtratedPair a b = .error .keyError) := by
  have hv := hf.good.toSound.val
  obtain ⟨d, d1, _, d3⟩ := C77_pairs f hf
  unfold Boolf.filtratedPair
  rw [hv]
  refine ⟨fun h => if_neg (by omega), fun ha hb h => ?_⟩
  have key : ∀ u w : Int, (u = w ∨ u < 0 ∨ w < 0) → pairGet d u w = .error .keyError := by
    intro u w h
    unfold pairGet
    split
    · rw [d3 _ _ (by omega)]
    · rfl
  rw [if_pos ⟨ha, hb⟩, d1]
  split
  · simp only [bind, Except.bind]
    exact key a b h
  · simp only [bind, Except.bind]
    rw [key b a (by omega)]

/-! ### Relations -/

/-- what all four methods need: the string if the atoms are in ascending order, or one that gives the same answers -/
theorem pair_answers (f : Boolf) (hf : Obj f) (a b x y : Nat) (hab : a ≠ b) (hx : f.atomvals[a]? = some x) (hy : f.atomvals[b]? = some y) :
    ∃ s, f.filtratedPair a b = .ok s ∧ (s = ['1', '0', '1', '1'] ↔ pairString f x y = ['1', '0', '1', '1']) ∧
      (s = ['0', '1', '1', '1'] ↔ pairString f x y = ['0', '1', '1', '1']) ∧ (s = ['1', '1', '1', '1'] ↔ pairString f x y = ['1', '1', '1', '1']) := by
  rcases Nat.lt_or_gt_of_ne hab with h | h
  · exact ⟨_, C77_pair_ascending f hf a b x y h hx hy, Iff.rfl, Iff.rfl, Iff.rfl⟩
  · obtain ⟨s, s1, s2, s3⟩ := C77_pair_descending f hf a b x y h hx hy
    refine ⟨s, s1, ?_⟩
    by_cases hs : s = pairString f x y
    · rw [hs]; exact ⟨Iff.rfl, Iff.rfl, Iff.rfl⟩
    · have h1 := (not_congr s2).1 hs
      rw [s3 hs]
      have t1 : Meets f y x false true = Meets f x y true false := propext Meets.swap
      have t2 : Meets f y x true false = Meets f x y false true := propext Meets.swap
      have t3 : Meets f y x true true = Meets f x y true true := propext Meets.swap
      have t4 : Meets f y x false false = Meets f x y false false := propext Meets.swap
      unfold pairString
      rw [t1, t2, t3, t4]
      clear t1 t2 t3 t4 s1 s2 s3 hs
      by_cases h1 : Meets f x y true false <;> by_cases h2 : Meets f x y false true <;> by_cases h3 : Meets f x y false false <;>
        by_cases h4 : Meets f x y true true <;> simp_all

theorem string_iff (f : Boolf) (x y : Nat) :
    (pairString f x y = ['1', '0', '1', '1'] ↔
      Meets f x y false false ∧ ¬ Meets f x y true false ∧ Meets f x y false true ∧ Meets f x y true true) ∧
    (pairString f x y = ['0', '1', '1', '1'] ↔
      ¬ Meets f x y false false ∧ Meets f x y true false ∧ Meets f x y false true ∧ Meets f x y true true) ∧
    (pairString f x y = ['1', '1', '1', '1'] ↔
      Meets f x y false false ∧ Meets f x y true false ∧ Meets f x y false true ∧ Meets f x y true true) := by
  unfold pairString
  by_cases h1 : Meets f x y true false <;> by_cases h2 : Meets f x y false true <;> by_cases h3 : Meets f x y false false <;>
    by_cases h4 : Meets f x y true true <;> simp [h1, h2, h3, h4]

theorem checkPair_nat {f : Boolf} (hf : Obj f) {a b x y : Nat} (hab : a ≠ b) (hx : f.atomvals[a]? = some x) (hy : f.atomvals[b]? = some y) :
    f.checkPair a b = .ok () := by
  have h1 := getElem?_some_lt hx
  have h2 := getElem?_some_lt hy
  unfold Boolf.checkPair
  rw [hf.good.toSound.val, if_pos (by omega)]

/-- **C77.** The relations of two different atoms, in any order.  Subset: no true place has the first atom without the second, but the other combinations
occur.  Intersect (two sides that overlap): only the combination without both is missing.  Crossing: all combinations occur. -/
theorem C77_relations (f : Boolf) (hf : Obj f) (a b x y : Nat) (hab : a ≠ b) (hx : f.atomvals[a]? = some x) (hy : f.atomvals[b]? = some y) :
    ∃ s i c : Bool, f.atomPairSubset a b = .ok s ∧ f.atomPairIntersect a b = .ok i ∧ f.atomPairCrossing a b = .ok c ∧
    (s = true ↔ Meets f x y false false ∧ ¬ Meets f x y true false ∧ Meets f x y false true ∧ Meets f x y true true) ∧
    (i = true ↔ ¬ Meets f x y false false ∧ Meets f x y true false ∧ Meets f x y false true ∧ Meets f x y true true) ∧
    (c = true ↔ Meets f x y false false ∧ Meets f x y true false ∧ Meets f x y false true ∧ Meets f x y true true) ∧
    f.atomBorderInAtomSide a b = if c then .error .bordersCrossing else .ok (s || i) := by
  obtain ⟨t, t1, t2, t3, t4⟩ := pair_answers f hf a b x y hab hx hy
  obtain ⟨u1, u2, u3⟩ := string_iff f x y
  have hc := checkPair_nat hf hab hx hy
  have e1 : f.atomPairSubset a b = .ok (decide (t = ['1', '0', '1', '1'])) := by
    unfold Boolf.atomPairSubset
    rw [hc, t1]; rfl
  have e2 : f.atomPairIntersect a b = .ok (decide (t = ['0', '1', '1', '1'])) := by
    unfold Boolf.atomPairIntersect
    rw [hc, t1]; rfl
  have e3 : f.atomPairCrossing a b = .ok (decide (t = ['1', '1', '1', '1'])) := by
    unfold Boolf.atomPairCrossing
    rw [hc, t1]; rfl
  refine ⟨_, _, _, e1, e2, e3, ?_, ?_, ?_, ?_⟩
  · rw [decide_eq_true_eq, t2, u1]
  · rw [decide_eq_true_eq, t3, u2]
  · rw [decide_eq_true_eq, t4, u3]
  · unfold Boolf.atomBorderInAtomSide
    rw [hc, e1, e2, e3]
    simp only [bind, Except.bind, pure, Except.pure]
    split
    · rfl
    · split
      · rename_i h; rw [h]; rfl
      · rename_i h; rw [Bool.not_eq_true] at h; rw [h]; rfl

/-- **C77.** Equal numbers and numbers that are too big raise an exception in all four methods; other negative numbers raise a `KeyError`. -/
theorem C77_relation_errors (f : Boolf) (hf : Obj f) (a b : Int) :
    (a = b ∨ f.atomvals.length ≤ a ∨ f.atomvals.length ≤ b → f.atomPairSubset a b = .error .notPairOfAtomKeys ∧
      f.atomPairIntersect a b = .error .notPairOfAtomKeys ∧ f.atomPairCrossing a b = .error .notPairOfAtomKeys ∧
      f.atomBorderInAtomSide a b = .error .notPairOfAtomKeys) ∧
    (a ≠ b → a < f.atomvals.length → b < f.atomvals.length → a < 0 ∨ b < 0 → f.atomPairSubset a b = .error .keyError ∧
      f.atomPairIntersect a b = .error .keyError ∧ f.atomPairCrossing a b = .error .keyError ∧ f.atomBorderInAtomSide a b = .error .keyError) := by
  have hv := hf.good.toSound.val
  constructor
  · intro h
    have hc : f.checkPair a b = .error .notPairOfAtomKeys := by
      unfold Boolf.checkPair
      rw [hv, if_neg (by omega)]
    unfold Boolf.atomPairSubset Boolf.atomPairIntersect Boolf.atomPairCrossing Boolf.atomBorderInAtomSide
    rw [hc]
    exact ⟨rfl, rfl, rfl, rfl⟩
  · intro h ha hb hn
    have hc : f.checkPair a b = .ok () := by
      unfold Boolf.checkPair
      rw [hv, if_pos (by omega)]
    have hp := (C77_pair_errors f hf a b).2 ha hb (Or.inr hn)
    have e3 : f.atomPairCrossing a b = .error .keyError := by
      unfold Boolf.atomPairCrossing
      rw [hc, hp]; rfl
    refine ⟨?_, ?_, e3, ?_⟩
    · unfold Boolf.atomPairSubset
      rw [hc, hp]; rfl
    · unfold Boolf.atomPairIntersect
      rw [hc, hp]; rfl
    · unfold Boolf.atomBorderInAtomSide
      rw [hc, e3]; rfl

theorem otherEntry_eq {a b k : Nat} (hab : a ≠ b) (hk : a = k ∨ b = k) : otherEntryInPair (a, b) k = .ok (if a = k then b else a) := by
  unfold otherEntryInPair
  have hd : ([a, b] : List Nat).dedup = [a, b] := List.dedup_eq_self.2 (by simp [hab])
  simp only [hd]
  rcases hk with rfl | rfl
  · simp [Ne.symm hab]
  · simp [hab]

/-- **C77.** `atom_to_crossing_atoms` has an entry for the place of each atom: the ascending list of the places of the atoms that cross it. -/
theorem C77_crossing_atoms (f : Boolf) (hf : Obj f) : ∃ d, f.atomToCrossingAtoms = .ok d ∧ d.keys = List.range f.atomvals.length ∧
    ∀ k < f.atomvals.length, ∃ l, d.get? k = some l ∧ l.Pairwise (· < ·) ∧
      ∀ j : Nat, j ∈ l ↔ j < f.atomvals.length ∧ f.atomPairCrossing k j = .ok true := by
  have h := hf.good.toSound
  set X : Nat → Nat := fun a => f.atomvals.getD a 0 with hX
  have hXs : ∀ a < f.atomvals.length, f.atomvals[a]? = some (X a) := by
    intro a ha
    rw [hX]; simp only
    rw [List.getD_eq_getElem?_getD, List.getElem?_eq_getElem ha]; rfl
  set cp := (pairsBelow f.valency).filter (fun p => decide (pairString f (X p.1) (X p.2) = ['1', '1', '1', '1'])) with hcp
  have hcross : ∀ k j : Nat, k < f.atomvals.length → j < f.atomvals.length → k ≠ j →
      (f.atomPairCrossing k j = .ok true ↔ pairString f (X k) (X j) = ['1', '1', '1', '1']) := by
    intro k j hk hj hkj
    obtain ⟨_, _, c, _, _, c1, _, _, c2, _⟩ := C77_relations f hf k j _ _ hkj (hXs k hk) (hXs j hj)
    rw [c1, (string_iff f _ _).2.2, ← c2]
    exact ⟨fun e => Except.ok.inj e, fun e => by rw [e]⟩
  have hself : ∀ k : Nat, f.atomPairCrossing k k ≠ .ok true := by
    intro k e
    rw [((C77_relation_errors f hf k k).1 (Or.inl rfl)).2.2.1] at e
    cases e
  have hsym : ∀ a b, pairString f (X a) (X b) = ['1', '1', '1', '1'] ↔ pairString f (X b) (X a) = ['1', '1', '1', '1'] := by
    intro a b
    rw [(string_iff f _ _).2.2, (string_iff f _ _).2.2]
    simp only [@Meets.swap f (X a) (X b)]
    tauto
  have hmem : ∀ a b, (a, b) ∈ cp ↔ a < b ∧ b < f.atomvals.length ∧ f.atomPairCrossing a b = .ok true := by
    intro a b
    rw [hcp, List.mem_filter, mem_pairsBelow, h.val, decide_eq_true_eq, and_assoc]
    refine and_congr_right fun h1 => and_congr_right fun h2 => ?_
    rw [hcross a b (by omega) h2 (by omega)]
  have hnd : cp.Nodup := (pairsBelow_nodup _).filter _
  have hrow : ∀ k, (cp.filter fun p => decide (p.1 = k ∨ p.2 = k)).mapM (fun p => otherEntryInPair p k) =
      .ok ((cp.filter fun p => decide (p.1 = k ∨ p.2 = k)).map fun p => if p.1 = k then p.2 else p.1) := by
    intro k
    have := mapM_except_map (fun p => otherEntryInPair p k) id (fun p : Nat × Nat => if p.1 = k then p.2 else p.1)
      (cp.filter fun p => decide (p.1 = k ∨ p.2 = k)) (fun p hp => by
        obtain ⟨a, b⟩ := p
        rw [List.mem_filter, hmem, decide_eq_true_eq] at hp
        exact otherEntry_eq (by omega) hp.2)
    rwa [List.map_id] at this
  have hall : (List.range f.valency).mapM (fun k : Nat => (do
      let crossing ← (cp.filter fun p => decide (p.1 = k ∨ p.2 = k)).mapM fun p => otherEntryInPair p k
      return (k, sorted crossing) : Except Err (Nat × List Nat))) =
      .ok ((List.range f.valency).map fun k =>
        (k, sorted ((cp.filter fun p => decide (p.1 = k ∨ p.2 = k)).map fun p => if p.1 = k then p.2 else p.1))) := by
    have := mapM_except_map (fun k : Nat => (do
      let crossing ← (cp.filter fun p => decide (p.1 = k ∨ p.2 = k)).mapM fun p => otherEntryInPair p k
      return (k, sorted crossing) : Except Err (Nat × List Nat))) id (fun k =>
        (k, sorted ((cp.filter fun p => decide (p.1 = k ∨ p.2 = k)).map fun p => if p.1 = k then p.2 else p.1))) (List.range f.valency) (fun k _ => by
        simp only [id]
        rw [hrow k]; rfl)
    rwa [List.map_id] at this
  have hkeys : (Dict.keys ((List.range f.valency).map fun k =>
        (k, sorted ((cp.filter fun p => decide (p.1 = k ∨ p.2 = k)).map fun p => if p.1 = k then p.2 else p.1)))) = List.range f.valency := by
    unfold Dict.keys
    rw [List.map_map]
    exact List.map_id _
  refine ⟨(List.range f.valency).map fun k =>
    (k, sorted ((cp.filter fun p => decide (p.1 = k ∨ p.2 = k)).map fun p => if p.1 = k then p.2 else p.1)), ?_, ?_, ?_⟩
  · unfold Boolf.atomToCrossingAtoms
    rw [pairs_eq h]
    simp only [bind, Except.bind] at hall ⊢
    have e : (((pairsBelow f.valency).map fun p => (p, pairString f (f.atomvals.getD p.1 0) (f.atomvals.getD p.2 0))).filter
        fun p => decide (p.2 = ['1', '1', '1', '1'])).map Prod.fst = cp := by
      rw [List.filter_map, List.map_map]
      exact List.map_id _
    rw [e, hall]
    simp only [pure, Except.pure]
    rw [Dict.ofPairs_of_nodup (by rw [hkeys]; exact List.nodup_range)]
  · rw [hkeys, h.val]
  · intro k hk
    refine ⟨_, (Dict.get?_iff_mem (by rw [hkeys]; exact List.nodup_range)).2 (List.mem_map.2 ⟨k, List.mem_range.2 (by rw [h.val]; exact hk), rfl⟩), ?_, ?_⟩
    · apply sorted_pairwise_lt
      apply List.Nodup.map_on _ (hnd.filter _)
      rintro ⟨a, b⟩ hp ⟨a', b'⟩ hq e
      rw [List.mem_filter, hmem, decide_eq_true_eq] at hp hq
      simp only at e hp hq
      rw [Prod.mk.injEq]
      split at e <;> split at e <;> omega
    · intro j
      rw [mem_sorted, List.mem_map]
      constructor
      · rintro ⟨⟨a, b⟩, hp, rfl⟩
        rw [List.mem_filter, hmem, decide_eq_true_eq] at hp
        simp only at hp ⊢
        obtain ⟨⟨h1, h2, h3⟩, h4⟩ := hp
        split
        · rename_i e; subst e; exact ⟨h2, h3⟩
        · have e : b = k := by omega
          subst e
          refine ⟨by omega, ?_⟩
          rw [hcross _ _ (by omega) (by omega) (by omega)] at h3 ⊢
          exact (hsym _ _).1 h3
      · rintro ⟨h1, h2⟩
        have hjk : k ≠ j := fun e => hself k (by rw [← e] at h2; exact h2)
        rcases Nat.lt_or_gt_of_ne hjk with hlt | hgt
        · exact ⟨(k, j), List.mem_filter.2 ⟨(hmem k j).2 ⟨hlt, h1, h2⟩, by simp⟩, by simp⟩
        · refine ⟨(j, k), List.mem_filter.2 ⟨(hmem j k).2 ⟨hgt, hk, ?_⟩, by simp⟩, by simp only; rw [if_neg (Ne.symm hjk)]⟩
          rw [hcross _ _ (by omega) (by omega) (by omega)] at h2 ⊢
          exact (hsym _ _).1 h2

example : ∃ f, Obj f ∧ f.atomvals.length = 3 := by
  obtain ⟨f, _, h2, h3⟩ := example_three
  exact ⟨f, h2.obj, by rw [h3]; rfl⟩

end Verif.BF
