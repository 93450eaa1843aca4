import Verif.Boolf.Props60

/-!
# C115: weights and sizes in `ec_clan_matrix`
-/

namespace Verif.BF
open Verif.Py Verif.BV Verif.P Verif.W Verif.SP
open Verif.A hiding Mat

/-! ## the weight of a Zhegalkin index -/

theorem weight_mk {z : Nat} {b : Binv} (h : BV.mk { intval := some (z : Int) } = .ok b) : b.weight = weightOf z := by
  obtain ⟨b', b1, b2, _⟩ := C26_intval_only z
  obtain rfl : b' = b := Except.ok.inj (b1.symm.trans h)
  rw [weight_eq]
  unfold weightOf bitsOf
  apply List.Perm.length_eq
  rw [List.perm_ext_iff_of_nodup ((exposet_pairwise b').imp ne_of_lt) (List.nodup_range.filter _)]
  intro i
  have := mem_bitsOf (s := z) (k := i)
  unfold bitsOf at this
  rw [mem_exposet, this, ← b2, intval_eq, testBit_valB, List.getD_eq_getElem?_getD]
  cases b'.vector[i]? with
  | none => simp
  | some x => simp

theorem weight_count {z N : Nat} (hz : z < 2 ^ N) : weightOf z = (List.range N).countP z.testBit := by
  rw [List.countP_eq_length_filter]
  unfold weightOf bitsOf
  apply List.Perm.length_eq
  rw [List.perm_ext_iff_of_nodup (List.nodup_range.filter _) (List.nodup_range.filter _)]
  intro i
  have := mem_bitsOf (s := z) (k := i)
  unfold bitsOf at this
  rw [this, List.mem_filter, List.mem_range]
  refine ⟨fun h => ⟨?_, h⟩, fun h => h.2⟩
  by_contra hc
  rw [testBit_of_lt hz (by omega)] at h
  cases h

/-- The atoms can be replaced by a permutation of the numbers below `n`. -/
theorem Renamed.below {n : Nat} {f g : Boolf} (hf : Reach f) (hg : Reach g) (hfn : f.adicity ≤ n) (h : Renamed n f g) :
    ∃ p, Below n p ∧ ∀ a, g.eval a = f.eval fun x => a (p x) := by
  obtain ⟨r, r1, r2⟩ := h.replaced hf hg
  have hA : ∀ x ∈ f.atomvals, x < n := fun x hx => lt_of_lt_of_le (hf.canon.toSound.adic_lt hx) hfn
  obtain ⟨s, s1, s2⟩ := extend_arrangement hA r1 r2.inj
  have hsl : s.length = n := by simpa using s1.length_eq
  have hsn : s.Nodup := s1.nodup_iff.2 List.nodup_range
  set p : Nat → Nat := fun x => if x < n then s.getD x 0 else x with hp
  have hpv : ∀ x, (hx : x < n) → p x = s[x]'(by omega) := fun x hx => by rw [hp]; simp only [if_pos hx]; rw [List.getD_eq_getElem?_getD, List.getElem?_eq_getElem (by omega)]; rfl
  have hlt : ∀ x < n, p x < n := fun x hx => by rw [hpv x hx]; exact List.mem_range.1 (s1.mem_iff.1 (List.getElem_mem _))
  have hge : ∀ x, n ≤ x → p x = x := fun x hx => by rw [hp]; simp only [if_neg (by omega : ¬ x < n)]
  have hb : Below n p := by
    refine ⟨hlt, fun x y hxy => ?_⟩
    by_cases hx : x < n <;> by_cases hy : y < n
    · rw [hpv x hx, hpv y hy] at hxy
      exact (List.Nodup.getElem_inj_iff hsn).1 hxy
    · have := hlt x hx
      rw [hge y (by omega)] at hxy
      omega
    · have := hlt y hy
      rw [hge x (by omega)] at hxy
      omega
    · rwa [hge x (by omega), hge y (by omega)] at hxy
  have hev : ∀ a, g.eval a = f.eval fun x => a (p x) := by
    intro a
    rw [r2.eval]
    refine Boolf.eval_congr fun x hx => ?_
    have hxn := hA x hx
    have := s2 x hx
    rw [List.getElem?_eq_getElem (by omega)] at this
    rw [hpv x hxn, Option.some.inj this, Bool.xor_false]
  exact ⟨p, hb, hev⟩

/-- the weight of the Zhegalkin index does not change when atoms are renamed -/
theorem Renamed.weight {n : Nat} {f g : Boolf} (hf : Reach f) (hg : Reach g) (hfn : f.adicity ≤ n) (hgn : g.adicity ≤ n) (h : Renamed n f g) {y z : Nat}
    (hy : f.zhe = .ok y) (hz : g.zhe = .ok z) : weightOf y = weightOf z := by
  obtain ⟨p, hb, hev⟩ := h.below hf hg hfn
  rw [zhe_Z hf.canon.toSound hfn] at hy
  rw [zhe_Z hg.canon.toSound hgn] at hz
  cases hy
  cases hz
  rw [weight_count (Z_lt f n), weight_count (Z_lt g n), ← (pre_range hb).countP_eq, List.countP_map]
  apply List.countP_congr
  intro i hi
  have hi := List.mem_range.1 hi
  simp only [Function.comp]
  rw [testBit_Z hi, testBit_Z (pre_lt n p i), coef_renamed hf.canon.toSound hfn hb hev]

theorem rowWeight_spec (l : List Nat) (w : Nat) (h : ∀ z ∈ l, weightOf z = w) :
    rowWeight l (some w) = .ok (some w) ∧ (l ≠ [] → rowWeight l none = .ok (some w)) := by
  induction l with
  | nil => exact ⟨rfl, fun h => absurd rfl h⟩
  | cons z l ih =>
    obtain ⟨b, b1, _⟩ := C26_intval_only z
    have hw := weight_mk b1
    rw [h z (by simp)] at hw
    have ih := (ih fun y hy => h y (by simp [hy])).1
    constructor
    · rw [rowWeight, show BV.mk { intval := some (z : Int) } = .ok b from b1]
      simp only [bind, Except.bind, hw, if_true]
      exact ih
    · intro _
      rw [rowWeight, show BV.mk { intval := some (z : Int) } = .ok b from b1]
      simp only [bind, Except.bind, hw]
      exact ih

theorem rowWeights_spec (rows : Dict Nat (List Nat)) (w : Nat → Nat) (reps : List Nat) (d : Dict Nat (Option Nat)) (hnd : (d.keys ++ reps).Nodup)
    (h : ∀ a ∈ reps, ∃ l, rows.get? a = some l ∧ l ≠ [] ∧ ∀ z ∈ l, weightOf z = w a) :
    rowWeights rows reps d = .ok (d ++ reps.map fun a => (a, some (w a))) := by
  induction reps generalizing d with
  | nil => simp [rowWeights]
  | cons a reps ih =>
    obtain ⟨l, l1, l2, l3⟩ := h a (by simp)
    have hna : a ∉ d.keys := fun hc => (List.nodup_append.1 hnd).2.2 a hc a (by simp) rfl
    have hk : Dict.keys (d.set a (some (w a))) = d.keys ++ [a] := by
      rw [Dict.set_of_not_mem _ hna]
      simp [Dict.keys]
    rw [rowWeights]
    have hw := (rowWeight_spec l (w a) l3).2 l2
    simp only [bind, Except.bind, dictGet, l1]
    simp only [hw]
    rw [ih _ (by rw [hk]; simpa using hnd) fun b hb => h b (by simp [hb]), Dict.set_of_not_mem _ hna]
    simp

theorem splinterSizes_spec (X : Dict (Nat × Nat) (List Nat)) (b : Nat) (s : Nat → Nat) (reps : List Nat) (d : Dict Nat Nat) (hnd : (d.keys ++ reps).Nodup)
    (h : ∀ a ∈ reps, ∃ l, X.get? (a, b) = some l ∧ l.length = s a) :
    splinterSizes X b reps d = .ok (d ++ reps.map fun a => (a, s a)) := by
  induction reps generalizing d with
  | nil => simp [splinterSizes]
  | cons a reps ih =>
    obtain ⟨l, l1, l2⟩ := h a (by simp)
    have hna : a ∉ d.keys := fun hc => (List.nodup_append.1 hnd).2.2 a hc a (by simp) rfl
    have hk : Dict.keys (d.set a (s a)) = d.keys ++ [a] := by
      rw [Dict.set_of_not_mem _ hna]
      simp [Dict.keys]
    rw [splinterSizes]
    simp only [bind, Except.bind, dictGet, l1, l2]
    rw [ih _ (by rw [hk]; simpa using hnd) fun b hb => h b (by simp [hb]), Dict.set_of_not_mem _ hna]
    simp

end Verif.BF
