import Verif.Boolf.Model17
import Verif.Boolf.Props28

/-!
# C117: the collection of segments
-/

namespace Verif.BF
open Verif.Py Verif.BV Verif.P Verif.W Verif.SP
open Verif.A hiding Mat

/-! ### specification -/

/-- a vector of `n` entries -1, 0, 1 -/
def Ternary (n : Nat) (v : List Int) : Prop := v.length = n ∧ ∀ x ∈ v, x = -1 ∨ x = 0 ∨ x = 1

/-- the number of a spot (a vertex of the hypercube) that is adjacent to the segment: its digits agree with the signs, and are arbitrary for zeros -/
def Adjoins (n : Nat) (v : List Int) (s : Nat) : Prop := s < 2 ^ n ∧ ∀ k x, v[k]? = some x → (x = 1 → s.testBit k = true) ∧ (x = -1 → s.testBit k = false)

/-- a segment all of whose spots are in the set -/
def FullFace (n : Nat) (S : Nat → Prop) (v : List Int) : Prop := Ternary n v ∧ ∀ s, Adjoins n v s → S s

/-! ### vectors -/

theorem Ternary.set {n : Nat} {v : List Int} (h : Ternary n v) (k : Nat) {x : Int} (hx : x = -1 ∨ x = 0 ∨ x = 1) : Ternary n (v.set k x) := by
  refine ⟨by rw [List.length_set, h.1], fun y hy => ?_⟩
  rcases List.mem_or_eq_of_mem_set hy with h' | rfl
  · exact h.2 y h'
  · exact hx

theorem mem_zeroKeys {v : List Int} {k : Nat} : k ∈ zeroKeys v ↔ v[k]? = some 0 := by
  unfold zeroKeys
  constructor
  · rintro h
    obtain ⟨⟨x, i⟩, h1, rfl⟩ := List.mem_map.1 h
    rw [List.mem_filter] at h1
    have := List.mem_zipIdx_iff_getElem?.1 h1.1
    simp only [decide_eq_true_eq] at h1
    rw [this, h1.2]
  · intro h
    exact List.mem_map.2 ⟨(0, k), List.mem_filter.2 ⟨List.mem_zipIdx_iff_getElem?.2 h, by simp⟩, rfl⟩

theorem mem_signKeys {v : List Int} {k : Nat} : k ∈ signKeys v ↔ ∃ x, v[k]? = some x ∧ x ≠ 0 := by
  unfold signKeys
  constructor
  · rintro h
    obtain ⟨⟨x, i⟩, h1, rfl⟩ := List.mem_map.1 h
    rw [List.mem_filter] at h1
    have := List.mem_zipIdx_iff_getElem?.1 h1.1
    simp only [ne_eq, decide_not, Bool.not_eq_eq_eq_not, Bool.not_true, decide_eq_false_iff_not] at h1
    exact ⟨x, this, h1.2⟩
  · rintro ⟨x, h, hx⟩
    exact List.mem_map.2 ⟨(x, k), List.mem_filter.2 ⟨List.mem_zipIdx_iff_getElem?.2 h, by simpa using hx⟩, rfl⟩

theorem length_zeroKeys (v : List Int) : (zeroKeys v).length = v.count 0 := by
  unfold zeroKeys
  rw [List.length_map, ← List.countP_eq_length_filter, List.count_eq_countP]
  conv_rhs => rw [← List.zipIdx_map_fst 0 v]
  rw [List.countP_map]
  apply List.countP_congr
  rintro ⟨x, i⟩ _
  simp

theorem set_set_self {v : List Int} {k : Nat} {x y : Int} (h : v[k]? = some x) : (v.set k y).set k x = v := by
  rw [List.set_set]
  apply List.ext_getElem?
  intro i
  rw [List.getElem?_set]
  split
  · next hi =>
    subst hi
    have := List.getElem?_eq_some_iff.1 h
    obtain ⟨h1, h2⟩ := this
    rw [if_pos h1, h]
  · rfl

theorem Adjoins.of_set {n : Nat} {v : List Int} {k s : Nat} {x : Int} (hk : v[k]? = some 0) (h : Adjoins n (v.set k x) s) : Adjoins n v s := by
  refine ⟨h.1, fun i y hi => ?_⟩
  by_cases hik : i = k
  · subst hik
    rw [hk] at hi
    cases hi
    constructor <;> intro h <;> omega
  · exact h.2 i y (by rw [List.getElem?_set_ne (Ne.symm hik)]; exact hi)

theorem Adjoins.of_superior {n : Nat} {v : List Int} {k s : Nat} {x : Int} (hx : x = 1 ∨ x = -1) (hk : v[k]? = some x) (h : Adjoins n (v.set k 0) s) :
    Adjoins n v s ∨ Adjoins n (v.set k (x * -1)) s := by
  have hlt : k < v.length := (List.getElem?_eq_some_iff.1 hk).1
  have hne : ∀ i y, i ≠ k → v[i]? = some y → (y = 1 → s.testBit i = true) ∧ (y = -1 → s.testBit i = false) := by
    intro i y hik hi
    exact h.2 i y (by rw [List.getElem?_set_ne (Ne.symm hik)]; exact hi)
  by_cases hs : (x = 1 → s.testBit k = true) ∧ (x = -1 → s.testBit k = false)
  · refine .inl ⟨h.1, fun i y hi => ?_⟩
    by_cases hik : i = k
    · subst hik
      rw [hk] at hi
      cases hi
      exact hs
    · exact hne i y hik hi
  · refine .inr ⟨h.1, fun i y hi => ?_⟩
    by_cases hik : i = k
    · subst hik
      rw [List.getElem?_set_self hlt] at hi
      cases hi
      rcases hx with rfl | rfl
      · simpa using hs
      · simpa using hs
    · rw [List.getElem?_set_ne (Ne.symm hik)] at hi
      exact hne i y hik hi

theorem FullFace.inferior {n : Nat} {S : Nat → Prop} {v : List Int} {k : Nat} {x : Int} (h : FullFace n S v) (hk : v[k]? = some 0) (hx : x = -1 ∨ x = 0 ∨ x = 1) :
    FullFace n S (v.set k x) := ⟨h.1.set k hx, fun s hs => h.2 s (hs.of_set hk)⟩

theorem FullFace.superior {n : Nat} {S : Nat → Prop} {v : List Int} {k : Nat} {x : Int} (h : FullFace n S v) (hk : v[k]? = some x) (hx : x ≠ 0)
    (h' : FullFace n S (v.set k (x * -1))) : FullFace n S (v.set k 0) := by
  refine ⟨h.1.set k (by simp), fun s hs => ?_⟩
  have hx' : x = 1 ∨ x = -1 := by
    rcases h.1.2 x (List.mem_of_getElem? hk) with h | h | h
    · exact .inr h
    · exact absurd h hx
    · exact .inl h
  rcases hs.of_superior hx' hk with hs | hs
  · exact h.2 s hs
  · exact h'.2 s hs

theorem FullFace.mono {n : Nat} {S T : Nat → Prop} {v : List Int} (h : FullFace n S v) (hST : ∀ s, S s → T s) : FullFace n T v := ⟨h.1, fun s hs => hST s (h.2 s hs)⟩

/-- the segment of one spot -/
def spotVector (n s : Nat) : List Int := (List.range n).map fun k => if s.testBit k then 1 else -1

theorem spotVector_get {n s k : Nat} (hk : k < n) : (spotVector n s)[k]? = some (if s.testBit k then 1 else -1) := by
  unfold spotVector
  rw [List.getElem?_map, List.getElem?_range hk]
  rfl

theorem spotVector_ternary (n s : Nat) : Ternary n (spotVector n s) := by
  refine ⟨by simp [spotVector], fun x hx => ?_⟩
  obtain ⟨k, _, rfl⟩ := List.mem_map.1 hx
  split <;> simp

theorem adjoins_spotVector {n s t : Nat} (hs : s < 2 ^ n) : Adjoins n (spotVector n s) t ↔ t = s := by
  constructor
  · rintro ⟨ht, h⟩
    apply Nat.eq_of_testBit_eq
    intro k
    by_cases hk : k < n
    · have := h k _ (spotVector_get hk)
      by_cases hb : s.testBit k = true
      · rw [if_pos hb] at this
        rw [hb, this.1 rfl]
      · rw [if_neg hb] at this
        rw [this.2 rfl]
        simpa using hb
    · rw [Nat.testBit_lt_two_pow (lt_of_lt_of_le ht (Nat.pow_le_pow_right (by omega) (by omega))),
        Nat.testBit_lt_two_pow (lt_of_lt_of_le hs (Nat.pow_le_pow_right (by omega) (by omega)))]
  · rintro rfl
    refine ⟨hs, fun k x hk => ?_⟩
    have hlt := (List.getElem?_eq_some_iff.1 hk).1
    rw [(spotVector_ternary n t).1] at hlt
    rw [spotVector_get hlt] at hk
    cases hk
    by_cases hb : t.testBit k = true
    · simp [hb]
    · simp [hb]

/-- a vector without zeros is the segment of a spot -/
theorem exists_spot {n : Nat} {v : List Int} (h : Ternary n v) (h0 : v.count 0 = 0) : ∃ s, s < 2 ^ n ∧ v = spotVector n s := by
  refine ⟨Nat.ofBits (fun i : Fin n => v.getD i 0 = 1), Nat.ofBits_lt_two_pow _, ?_⟩
  apply List.ext_getElem?
  intro k
  by_cases hk : k < n
  · rw [spotVector_get hk, Nat.testBit_ofBits_lt _ _ hk]
    have hk' : k < v.length := by rw [h.1]; exact hk
    rw [List.getElem?_eq_getElem hk']
    have hg : v.getD k 0 = v[k] := by rw [List.getD_eq_getElem?_getD, List.getElem?_eq_getElem hk']; rfl
    simp only [hg, decide_eq_true_eq]
    rcases h.2 _ (List.getElem_mem hk') with h1 | h1 | h1
    · rw [h1]
      rfl
    · exact absurd (h1 ▸ List.getElem_mem hk') (List.count_eq_zero.1 h0)
    · rw [h1]
      rfl
  · rw [List.getElem?_eq_none (by rw [h.1]; omega), List.getElem?_eq_none (by rw [(spotVector_ternary n _).1]; omega)]

theorem setOnes_eq {n : Nat} : ∀ (l : List Nat) (v : List Int), v.length = n → (∀ i ∈ l, i < n) → ∃ w, setOnes l v = .ok w ∧ w.length = n ∧
    ∀ k, w[k]? = if k ∈ l then some 1 else v[k]?
  | [], v, h, _ => ⟨v, rfl, h, fun k => by simp⟩
  | i :: l, v, h, hl => by
    have hi : i < v.length := by rw [h]; exact hl i (by simp)
    obtain ⟨w, h1, h2, h3⟩ := setOnes_eq l (v.set i 1) (by rw [List.length_set, h]) (fun j hj => hl j (by simp [hj]))
    refine ⟨w, by rw [setOnes, if_pos hi, h1], h2, fun k => ?_⟩
    rw [h3]
    by_cases hk : k ∈ l
    · simp [hk]
    · by_cases hki : k = i
      · subst hki
        simp [hk, hi]
      · rw [List.getElem?_set_ne (Ne.symm hki)]
        simp [hk, hki]

theorem setOnes_bits {n s : Nat} (hs : s < 2 ^ n) : setOnes (bitsOf s) (List.replicate n (-1)) = .ok (spotVector n s) := by
  have hb : ∀ i ∈ bitsOf s, i < n := by
    intro i hi
    by_contra hc
    have := Nat.ge_two_pow_of_testBit (mem_bitsOf.1 hi)
    have := Nat.pow_le_pow_right (n := 2) (by omega) (not_lt.1 hc)
    omega
  obtain ⟨w, h1, h2, h3⟩ := setOnes_eq (n := n) (bitsOf s) (List.replicate n (-1)) (by simp) hb
  rw [h1]
  congr 1
  apply List.ext_getElem?
  intro k
  rw [h3]
  by_cases hk : k < n
  · rw [spotVector_get hk]
    by_cases hm : s.testBit k = true
    · rw [if_pos (mem_bitsOf.2 hm), if_pos hm]
    · rw [if_neg (fun h => hm (mem_bitsOf.1 h)), if_neg hm, List.getElem?_replicate, if_pos hk]
  · rw [if_neg (fun h => hk (hb k h)), List.getElem?_eq_none (by simp; omega), List.getElem?_eq_none (by rw [(spotVector_ternary n _).1]; omega)]

/-! ### all vectors -/

/-- all vectors of `n` entries -1, 0, 1 -/
def ternaryVectors : Nat → List (List Int)
  | 0 => [[]]
  | n + 1 => (ternaryVectors n).flatMap fun v => [-1 :: v, 0 :: v, 1 :: v]

theorem mem_ternaryVectors : ∀ {n : Nat} {v : List Int}, v ∈ ternaryVectors n ↔ Ternary n v
  | 0, v => by
    constructor
    · intro h
      rw [ternaryVectors, List.mem_singleton] at h
      subst h
      exact ⟨rfl, by simp⟩
    · intro h
      rw [List.length_eq_zero_iff.1 h.1]
      simp [ternaryVectors]
  | n + 1, v => by
    rw [ternaryVectors, List.mem_flatMap]
    constructor
    · rintro ⟨w, hw, hv⟩
      have h := mem_ternaryVectors.1 hw
      simp only [List.mem_cons, List.not_mem_nil, or_false] at hv
      rcases hv with rfl | rfl | rfl <;> exact ⟨by simp [h.1], by simpa using h.2⟩
    · rintro ⟨h1, h2⟩
      match v, h1, h2 with
      | x :: w, h1, h2 =>
        refine ⟨w, mem_ternaryVectors.2 ⟨by simpa using h1, fun y hy => h2 y (by simp [hy])⟩, ?_⟩
        rcases h2 x (by simp) with rfl | rfl | rfl <;> simp

theorem length_ternaryVectors : ∀ n : Nat, (ternaryVectors n).length = 3 ^ n
  | 0 => rfl
  | n + 1 => by
    rw [ternaryVectors, List.length_flatMap]
    simp only [List.length_cons, List.length_nil, List.map_const', List.sum_replicate, length_ternaryVectors n, smul_eq_mul, Nat.pow_succ]

theorem nodup_ternaryVectors : ∀ n : Nat, (ternaryVectors n).Nodup
  | 0 => by simp [ternaryVectors]
  | n + 1 => by
    rw [ternaryVectors, List.nodup_flatMap]
    refine ⟨fun v _ => by simp, (nodup_ternaryVectors n).imp ?_⟩
    intro v w hvw x hx hx'
    simp only [List.mem_cons, List.not_mem_nil, or_false] at hx hx'
    rcases hx with rfl | rfl | rfl <;> simp at hx' <;> exact hvw hx'

end Verif.BF
