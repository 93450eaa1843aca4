import Verif.Boolf.Props45
import Mathlib.Algebra.Order.Field.Rat

/-!
# Minimal representatives: permutations of the atoms and layers
-/

namespace Verif.BF
open Verif.Py Verif.BV Verif.P Verif.W Verif.SP
open Verif.A hiding Mat

/-! ### coefficients after a permutation of the atoms -/

/-- a permutation of the numbers below `n` -/
structure Below (n : Nat) (p : Nat → Nat) : Prop where
  lt : ∀ i < n, p i < n
  inj : Function.Injective p

theorem Below.perm {n : Nat} {p : Nat → Nat} (h : Below n p) : ((List.range n).map p).Perm (List.range n) := surj_below h.inj h.lt

theorem Below.surj {n : Nat} {p : Nat → Nat} (h : Below n p) {y : Nat} (hy : y < n) : ∃ x < n, p x = y := by
  obtain ⟨x, hx, he⟩ := List.mem_map.1 (h.perm.mem_iff.2 (List.mem_range.2 hy))
  exact ⟨x, List.mem_range.1 hx, he⟩

/-- the number with the digits of `H` at the images -/
def pre (n : Nat) (p : Nat → Nat) (H : Nat) : Nat := valB ((List.range n).map fun x => H.testBit (p x))

theorem pre_lt (n : Nat) (p : Nat → Nat) (H : Nat) : pre n p H < 2 ^ n := by
  have := valB_lt ((List.range n).map fun x => H.testBit (p x))
  rwa [List.length_map, List.length_range] at this

theorem testBit_pre {n : Nat} {p : Nat → Nat} {x : Nat} (hx : x < n) (H : Nat) : (pre n p H).testBit x = H.testBit (p x) := by
  unfold pre
  rw [testBit_valB_map, List.getElem?_range hx]
  rfl

theorem eq_pre {n : Nat} {p : Nat → Nat} {K H : Nat} (hK : K < 2 ^ n) (h : ∀ x < n, K.testBit x = H.testBit (p x)) : K = pre n p H := by
  apply Nat.eq_of_testBit_eq
  intro x
  by_cases hx : x < n
  · rw [testBit_pre hx, h x hx]
  · rw [testBit_of_lt hK (by omega), testBit_of_lt (pre_lt n p H) (by omega)]

theorem sub_pre {n : Nat} {p : Nat → Nat} (hp : Below n p) {i : Nat} (hi : i < 2 ^ n) (H : Nat) : sub (pre n p i) (pre n p H) = sub i H := by
  rw [Bool.eq_iff_iff, sub_iff, sub_iff]
  constructor
  · intro h k hk
    have hkn : k < n := by
      by_contra hc
      rw [testBit_of_lt hi (by omega)] at hk
      cases hk
    obtain ⟨x, hx, rfl⟩ := hp.surj hkn
    have := h x (by rw [testBit_pre hx]; exact hk)
    rwa [testBit_pre hx] at this
  · intro h x hx
    by_cases hxn : x < n
    · rw [testBit_pre hxn] at hx ⊢
      exact h _ hx
    · rw [testBit_of_lt (pre_lt n p i) (by omega)] at hx
      cases hx

theorem pre_inj {n : Nat} {p : Nat → Nat} (hp : Below n p) {i j : Nat} (hi : i < 2 ^ n) (hj : j < 2 ^ n) (h : pre n p i = pre n p j) : i = j := by
  apply Nat.eq_of_testBit_eq
  intro k
  by_cases hk : k < n
  · obtain ⟨x, hx, rfl⟩ := hp.surj hk
    rw [← testBit_pre (p := p) hx, h, testBit_pre hx]
  · rw [testBit_of_lt hi (by omega), testBit_of_lt hj (by omega)]

theorem pre_range {n : Nat} {p : Nat → Nat} (hp : Below n p) : ((List.range (2 ^ n)).map (pre n p)).Perm (List.range (2 ^ n)) := by
  have hnd : ((List.range (2 ^ n)).map (pre n p)).Nodup := by
    apply List.Nodup.map_on _ List.nodup_range
    intro i hi j hj h
    exact pre_inj hp (List.mem_range.1 hi) (List.mem_range.1 hj) h
  apply (List.subperm_of_subset hnd _).perm_of_length_le
  · simp
  · intro x hx
    obtain ⟨i, _, rfl⟩ := List.mem_map.1 hx
    exact List.mem_range.2 (pre_lt n p i)

theorem xorSum_perm {l m : List Bool} (h : l.Perm m) : xorSum l = xorSum m := by
  induction h with
  | nil => rfl
  | cons x _ ih => rw [xorSum, xorSum, ih]
  | swap x y l => simp only [xorSum]; cases x <;> cases y <;> cases xorSum l <;> rfl
  | trans _ _ ih1 ih2 => rw [ih1, ih2]

theorem subXor_pre {n : Nat} {p : Nat → Nat} (hp : Below n p) (v : Nat → Bool) (H : Nat) : subXor n (fun i => v (pre n p i)) H = subXor n v (pre n p H) := by
  unfold subXor
  have := ((pre_range hp).map fun i => v i && sub i (pre n p H))
  rw [← xorSum_perm this, List.map_map]
  apply xorSum_congr
  intro i hi
  simp only [Function.comp]
  rw [sub_pre hp (List.mem_range.1 hi)]

theorem coef_renamed {f g : Boolf} (hf : Sound f) {n : Nat} (hn : f.adicity ≤ n) {p : Nat → Nat} (hp : Below n p) (h : ∀ a, g.eval a = f.eval fun x => a (p x)) (H : Nat) :
    coef g n H = coef f n (pre n p H) := by
  unfold coef
  rw [← subXor_pre hp]
  apply subXor_congr
  intro i _
  rw [h]
  apply Boolf.eval_congr
  intro x hx
  rw [testBit_pre ((hf.adic n).1 hn x hx)]

theorem ones_pre {n : Nat} {p : Nat → Nat} (hp : Below n p) (H : Nat) : ones n (pre n p H) = ones n H := by
  unfold ones
  rw [← hp.perm.countP_eq H.testBit, List.countP_map]
  apply List.countP_congr
  intro x hx
  rw [testBit_pre (List.mem_range.1 hx)]
  rfl

theorem pre_full {n : Nat} {p : Nat → Nat} (hp : Below n p) : pre n p (2 ^ n - 1) = 2 ^ n - 1 := by
  have hpos := Nat.two_pow_pos n
  symm
  apply eq_pre (by omega)
  intro x hx
  rw [Nat.testBit_two_pow_sub_one, Nat.testBit_two_pow_sub_one, decide_eq_true hx, decide_eq_true (hp.lt x hx)]

theorem below_of_index {n k : Nat} (hk : k < Nat.factorial n) {p : Perm} (h : intToPerm k = .ok p) : Below n p.get := by
  have hl : k < (revColexPerms n).length := by rw [length_revColexPerms]; exact hk
  obtain ⟨_, q, _, q2, q3, q4, _, q', h1, h2⟩ := perm_at (List.getElem?_eq_getElem hl)
  obtain rfl : p = q' := Except.ok.inj (h.symm.trans h1)
  have hg : p.get = q.get := funext h2
  rw [hg]
  exact ⟨q2.wf.maps_below n (Or.inl ⟨q3, q4⟩), q2.wf.get_bijective.1⟩

/-- the permutation of an index -/
theorem perms_exist : ∃ P : Nat → Perm, ∀ k, intToPerm k = .ok (P k) := by
  have : ∀ k, ∃ p, intToPerm k = .ok p := fun k => by
    obtain ⟨p, p1, _⟩ := C15_rank_of_int k
    exact ⟨p, p1⟩
  choose P hP using this
  exact ⟨P, hP⟩

/-! ### cosets of all places of a layer -/

theorem mem_foldl_insert (l : List Nat) : ∀ (init : List Nat) (x : Nat), x ∈ l.foldl (fun found k => if k ∈ found then found else found ++ [k]) init ↔ x ∈ init ∨ x ∈ l := by
  induction l with
  | nil => intro init x; simp
  | cons a l ih =>
    intro init x
    rw [List.foldl_cons, ih]
    by_cases h : a ∈ init
    · rw [if_pos h]
      constructor
      · rintro (h | h)
        · exact .inl h
        · exact .inr (by simp [h])
      · rintro (h' | h')
        · exact .inl h'
        · rcases List.mem_cons.1 h' with rfl | h'
          · exact .inl h
          · exact .inr h'
    · rw [if_neg h]
      simp only [List.mem_append, List.mem_cons, List.mem_nil_iff, or_false]
      tauto

/-- The permutations for which the number with the digits of the images is among the needles. -/
theorem foundLoop_spec {n H : Nat} (hH : H < 2 ^ n) {P : Nat → Perm} (hP : ∀ k, intToPerm k = .ok (P k)) (needles : List Nat)
    (hn : ∀ K ∈ needles, K < 2 ^ n ∧ ones n K = ones n H) (init : List Nat) :
    ∃ found, foundLoop H n needles init = .ok found ∧ ∀ k, k ∈ found ↔ k ∈ init ∨ (k < Nat.factorial n ∧ pre n (P k).get H ∈ needles) := by
  induction needles generalizing init with
  | nil => exact ⟨init, rfl, fun k => by simp⟩
  | cons K rest ih =>
    obtain ⟨hK, hw⟩ := hn K (by simp)
    obtain ⟨l, l1, _, _, l4⟩ := C98_coset K H n hK hH hw
    obtain ⟨found, h1, h2⟩ := ih (fun K hK => hn K (by simp [hK])) (l.foldl (fun found k => if k ∈ found then found else found ++ [k]) init)
    refine ⟨found, ?_, fun k => ?_⟩
    · unfold foundLoop
      rw [l1]
      exact h1
    · rw [h2, mem_foldl_insert, l4]
      have : (∃ p, intToPerm k = .ok p ∧ ∀ x < n, K.testBit x = H.testBit (p.get x)) ↔ pre n (P k).get H = K := by
        constructor
        · rintro ⟨p, p1, p2⟩
          obtain rfl : P k = p := Except.ok.inj ((hP k).symm.trans p1)
          exact (eq_pre hK p2).symm
        · rintro rfl
          exact ⟨P k, hP k, fun x hx => testBit_pre hx H⟩
      rw [this]
      simp only [List.mem_cons]
      tauto

/-- For two numbers with equally many digits 1 there is a permutation that maps the one to the other. -/
theorem exists_pre {n K H : Nat} (hK : K < 2 ^ n) (hH : H < 2 ^ n) (hw : ones n K = ones n H) {P : Nat → Perm} (hP : ∀ k, intToPerm k = .ok (P k)) :
    ∃ k < Nat.factorial n, pre n (P k).get H = K := by
  obtain ⟨l, _, _, l3, l4⟩ := C98_coset K H n hK hH hw
  have hne : l ≠ [] := by
    intro h
    rw [h, List.length_nil] at l3
    have := Nat.mul_pos (Nat.factorial_pos (ones n K)) (Nat.factorial_pos (n - ones n K))
    omega
  obtain ⟨k, hk⟩ := List.exists_mem_of_ne_nil _ hne
  obtain ⟨h1, p, p1, p2⟩ := (l4 k).1 hk
  obtain rfl : P k = p := Except.ok.inj ((hP k).symm.trans p1)
  exact ⟨k, h1, (eq_pre hK p2).symm⟩

/-! ### layers -/

/-- the places of a layer with a given truth value -/
def layerPlaces (n : Nat) (a : Nat → Bool) (w : Nat) (b : Bool) : List Nat := (List.range (2 ^ n)).filter fun k => ones n k = w ∧ a k = b

theorem mem_layerPlaces {n : Nat} {a : Nat → Bool} {w : Nat} {b : Bool} {k : Nat} : k ∈ layerPlaces n a w b ↔ k < 2 ^ n ∧ ones n k = w ∧ a k = b := by
  unfold layerPlaces
  rw [List.mem_filter, List.mem_range]
  simp

theorem ones_mask {n w : Nat} (hw : w ≤ n) : ones n (2 ^ w - 1) = w := by
  unfold ones
  obtain ⟨d, rfl⟩ : ∃ d, n = w + d := ⟨n - w, by omega⟩
  rw [List.range_add, List.countP_append, List.countP_eq_length.2, List.countP_eq_zero.2]
  · simp
  · intro x hx
    obtain ⟨i, _, rfl⟩ := List.mem_map.1 hx
    rw [Nat.testBit_two_pow_sub_one]
    simp
  · intro x hx
    rw [Nat.testBit_two_pow_sub_one, decide_eq_true (List.mem_range.1 hx)]

/-- the dictionaries of layers and their ratios -/
structure Layers (n : Nat) (a : Nat → Bool) (layers : Dict Nat (List Nat × List Nat)) (ratios : Dict Nat Rat) : Prop where
  layer : ∀ w ≤ n, layers.get? w = some (layerPlaces n a w false, layerPlaces n a w true)
  ratio : ∀ w ≤ n, ∃ q, ratios.get? w = some q ∧ (q = 0 ↔ layerPlaces n a w true = []) ∧ (q = 1 ↔ layerPlaces n a w false = [])
  keys : ratios.keys = List.range (n + 1)

theorem get?_map_snd {α β γ : Type} [DecidableEq α] (d : Dict α β) (h : β → γ) (k : α) : Dict.get? (d.map fun kp => (kp.1, h kp.2)) k = (d.get? k).map h := by
  induction d with
  | nil => rfl
  | cons kp d ih =>
    rw [List.map_cons, Dict.get?_cons, Dict.get?_cons, ih]
    split <;> rfl

theorem layers_exist (n : Nat) (a : Nat → Bool) :
    ∃ layers ratios, flatToPlaces ((List.range (2 ^ n)).map a) = .ok layers ∧ layerRatios layers = .ok ratios ∧ Layers n a layers ratios := by
  obtain ⟨layers, l1, l2, l3⟩ := (C78_places ((List.range (2 ^ n)).map a)).1 n (by simp)
  have hl : ∀ w ≤ n, layers.get? w = some (layerPlaces n a w false, layerPlaces n a w true) := by
    intro w hw
    rw [l3 w hw]
    have : ∀ b, (List.range (2 ^ n)).filter (fun k => decide (ones n k = w ∧ ((List.range (2 ^ n)).map a)[k]? = some b)) = layerPlaces n a w b := by
      intro b
      unfold layerPlaces
      apply List.filter_congr
      intro k hk
      rw [List.getElem?_map, List.getElem?_range (List.mem_range.1 hk)]
      simp
    rw [this, this]
  have hpos : ∀ w ≤ n, (layerPlaces n a w false).length + (layerPlaces n a w true).length ≠ 0 := by
    intro w hw h
    have hm : 2 ^ w - 1 < 2 ^ n := by
      have := Nat.pow_le_pow_right (n := 2) (by omega) hw
      have := Nat.two_pow_pos w
      omega
    have : 2 ^ w - 1 ∈ layerPlaces n a w (a (2 ^ w - 1)) := mem_layerPlaces.2 ⟨hm, ones_mask hw, rfl⟩
    have hne := List.length_pos_iff.2 (List.ne_nil_of_mem this)
    cases hb : a (2 ^ w - 1) with
    | false => rw [hb] at hne; omega
    | true => rw [hb] at hne; omega
  have hmem : ∀ kp ∈ layers, kp.1 ≤ n ∧ kp.2 = (layerPlaces n a kp.1 false, layerPlaces n a kp.1 true) := by
    intro kp hkp
    have hk : kp.1 ∈ layers.keys := List.mem_map.2 ⟨kp, hkp, rfl⟩
    rw [l2, List.mem_range] at hk
    have := Dict.mem_get? (k := kp.1) (v := kp.2) (by rw [l2]; exact List.nodup_range) hkp
    rw [hl _ (by omega)] at this
    exact ⟨by omega, (Option.some.inj this).symm⟩
  have hr : layerRatios layers = .ok (layers.map fun kp => (kp.1, ((kp.2.2.length : Rat) / ((kp.2.1.length + kp.2.2.length : Nat) : Rat)))) := by
    unfold layerRatios
    apply mapM_ok
    intro kp hkp
    obtain ⟨h1, h2⟩ := hmem kp hkp
    unfold layerRatio
    rw [if_neg (by rw [h2]; exact hpos _ h1)]
    rfl
  refine ⟨layers, _, l1, hr, hl, fun w hw => ?_, ?_⟩
  · refine ⟨_, by rw [get?_map_snd layers (fun p => ((p.2.length : Rat) / ((p.1.length + p.2.length : Nat) : Rat))), hl w hw]; rfl, ?_, ?_⟩
    · have := hpos w hw
      rw [div_eq_zero_iff]
      simp only [Nat.cast_eq_zero, List.length_eq_zero_iff]
      constructor
      · rintro (h | h)
        · exact h
        · exact absurd h this
      · exact .inl
    · have := hpos w hw
      rw [div_eq_one_iff_eq (by exact_mod_cast this)]
      simp only
      rw [Nat.cast_inj]
      rw [← List.length_eq_zero_iff]
      omega
  · rw [← l2]
    unfold Dict.keys
    rw [List.map_map]
    rfl

end Verif.BF
