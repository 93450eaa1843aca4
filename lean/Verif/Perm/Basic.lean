import Verif.Perm.Model
import Verif.Py.Lemmas
import Mathlib.Data.Nat.Prime.Basic

/-! Helper lemmas about mappings, prime factors and period reduction. -/

namespace Verif.P
open Verif.Py

/-! ## Finite self maps -/

/-- The function of a dict: unlisted arguments are fixed. -/
def dictFun (m : Dict Nat Nat) (i : Nat) : Nat := (m.get? i).getD i

/-- A mapping as the constructor stores it: no fixed points, values are a rearrangement of the keys. -/
structure Good (m : Dict Nat Nat) : Prop where
  nodup : (m.keys).Nodup
  perm : (m.keys).Perm m.values
  nofix : ∀ kv ∈ m, kv.1 ≠ kv.2

theorem dictFun_of_mem {m : Dict Nat Nat} {i v : Nat} (h : m.get? i = some v) : dictFun m i = v := by
  simp [dictFun, h]

theorem dictFun_of_not_mem {m : Dict Nat Nat} {i : Nat} (h : i ∉ m.keys) : dictFun m i = i := by
  simp [dictFun, Dict.get?_eq_none.2 h]

theorem get?_eq_dictFun {m : Dict Nat Nat} {i : Nat} (h : i ∈ m.keys) :
    m.get? i = some (dictFun m i) := by
  obtain ⟨v, hv⟩ := Dict.mem_keys_iff.1 h
  rw [dictFun_of_mem hv, hv]

theorem values_eq {m : Dict Nat Nat} (h : (m.keys).Nodup) : m.values = m.keys.map (dictFun m) := by
  unfold Dict.values Dict.keys
  rw [List.map_map]
  apply List.map_congr_left
  rintro ⟨k, v⟩ hp
  have := Dict.mem_get? h hp
  simp [dictFun, this]

theorem Good.mem_keys_iff_ne {m : Dict Nat Nat} (h : Good m) {i : Nat} :
    i ∈ m.keys ↔ dictFun m i ≠ i := by
  constructor
  · intro hi
    have := get?_eq_dictFun hi
    have := h.nofix _ (Dict.get?_mem this)
    exact fun h => this h.symm
  · intro hi
    by_contra hc
    exact hi (dictFun_of_not_mem hc)

theorem Good.mapsTo {m : Dict Nat Nat} (h : Good m) {i : Nat} (hi : i ∈ m.keys) :
    dictFun m i ∈ m.keys := by
  rw [h.perm.mem_iff]
  exact Dict.mem_values_of_get? (get?_eq_dictFun hi)

theorem Good.mem_iff {m : Dict Nat Nat} (h : Good m) {i : Nat} :
    dictFun m i ∈ m.keys ↔ i ∈ m.keys := by
  constructor
  · intro hi
    by_contra hc
    rw [dictFun_of_not_mem hc] at hi
    exact hc hi
  · exact h.mapsTo

theorem Good.injective {m : Dict Nat Nat} (h : Good m) : Function.Injective (dictFun m) := by
  intro i j hij
  have hn : (m.keys.map (dictFun m)).Nodup := by
    rw [← values_eq h.nodup]; exact h.perm.nodup_iff.1 h.nodup
  by_cases hi : i ∈ m.keys
  · by_cases hj : j ∈ m.keys
    · exact List.inj_on_of_nodup_map hn hi hj hij
    · rw [dictFun_of_not_mem hj] at hij
      exact absurd (hij ▸ h.mapsTo hi) hj
  · by_cases hj : j ∈ m.keys
    · rw [dictFun_of_not_mem hi] at hij
      exact absurd (hij ▸ h.mapsTo hj) hi
    · rwa [dictFun_of_not_mem hi, dictFun_of_not_mem hj] at hij

theorem Good.surjective {m : Dict Nat Nat} (h : Good m) : Function.Surjective (dictFun m) := by
  intro j
  by_cases hj : j ∈ m.keys
  · rw [h.perm.mem_iff, values_eq h.nodup] at hj
    obtain ⟨i, _, hi⟩ := List.mem_map.1 hj
    exact ⟨i, hi⟩
  · exact ⟨j, dictFun_of_not_mem hj⟩

/-- An injective self map of a duplicate-free list rearranges it. -/
theorem perm_map_of_inj {S : List Nat} (hS : S.Nodup) {f : Nat → Nat}
    (hf : ∀ i ∈ S, ∀ j ∈ S, f i = f j → i = j) (hm : ∀ i ∈ S, f i ∈ S) : S.Perm (S.map f) := by
  have hn : (S.map f).Nodup := hS.map_on hf
  have hsub : S.map f ⊆ S := by
    intro x hx
    obtain ⟨i, hi, rfl⟩ := List.mem_map.1 hx
    exact hm i hi
  exact ((hn.subperm hsub).perm_of_length_le (by simp)).symm

/-- Tabulating `f` on a list of keys. -/
def tab (S : List Nat) (f : Nat → Nat) : Dict Nat Nat := S.map (fun i => (i, f i))

theorem keys_tab (S : List Nat) (f : Nat → Nat) : (tab S f).keys = S := by
  simp [tab, Dict.keys, Function.comp_def]

theorem values_tab (S : List Nat) (f : Nat → Nat) : (tab S f).values = S.map f := by
  simp [tab, Dict.values, Function.comp_def]

theorem get?_tab (S : List Nat) (f : Nat → Nat) (i : Nat) :
    (tab S f).get? i = if i ∈ S then some (f i) else none := by
  induction S with
  | nil => simp [tab]
  | cons a S ih =>
    have : tab (a :: S) f = (a, f a) :: tab S f := rfl
    rw [this, Dict.get?_cons, ih]
    by_cases h : a = i
    · subst h; simp
    · have h' : i ≠ a := fun h2 => h h2.symm
      simp [h, h']

theorem get?_filter {m : Dict Nat Nat} (hm : (m.keys).Nodup) (P : Nat × Nat → Bool) (i : Nat) :
    Dict.get? (m.filter P) i = (m.get? i).filter (fun v => P (i, v)) := by
  have hf : (Dict.keys (m.filter P)).Nodup :=
    List.Sublist.nodup (List.Sublist.map _ List.filter_sublist) hm
  cases h : m.get? i with
  | none =>
    rw [Dict.get?_eq_none] at h
    simp only [Option.filter_none, Dict.get?_eq_none]
    intro hc
    obtain ⟨p, hp, rfl⟩ := List.mem_map.1 hc
    exact h (List.mem_map.2 ⟨p, (List.mem_filter.1 hp).1, rfl⟩)
  | some v =>
    have hmem := Dict.get?_mem h
    rw [Option.filter_some]
    split
    · rename_i hP
      exact Dict.mem_get? hf (List.mem_filter.2 ⟨hmem, hP⟩)
    · rename_i hP
      rw [Dict.get?_eq_none]
      intro hc
      obtain ⟨p, hp, hpi⟩ := List.mem_map.1 hc
      obtain ⟨hp1, hp2⟩ := List.mem_filter.1 hp
      obtain ⟨k, w⟩ := p
      simp only at hpi; subst hpi
      have := Dict.mem_get? hm hp1
      rw [h] at this
      cases this
      exact hP hp2

theorem keys_filter_key (m : Dict Nat Nat) (P : Nat → Bool) :
    Dict.keys (m.filter (fun kv => P kv.1)) = m.keys.filter P := by
  induction m with
  | nil => rfl
  | cons p m ih =>
    simp only [List.filter_cons, Dict.keys_cons]
    split
    · simp [ih]
    · exact ih

/-! ## Periodic continuation -/

/-- `f` on `[0, L)`, repeated with period `L`. -/
def per (f : Nat → Nat) (L : Nat) (i : Nat) : Nat := f (i % L) + L * (i / L)

theorem per_add (f : Nat → Nat) {L : Nat} (hL : 0 < L) (i : Nat) : per f L (i + L) = per f L i + L := by
  simp [per, Nat.add_div_right _ hL, Nat.mul_add, Nat.add_assoc]

theorem per_of_lt (f : Nat → Nat) {L i : Nat} (h : i < L) : per f L i = f i := by
  simp [per, Nat.mod_eq_of_lt h, Nat.div_eq_of_lt h]

theorem per_mod {f : Nat → Nat} {L : Nat} (hf : ∀ i < L, f i < L) (hL : 0 < L) (i : Nat) :
    per f L i % L = f (i % L) := by
  rw [per, Nat.add_mul_mod_self_left, Nat.mod_eq_of_lt (hf _ (Nat.mod_lt _ hL))]

theorem per_div {f : Nat → Nat} {L : Nat} (hf : ∀ i < L, f i < L) (hL : 0 < L) (i : Nat) :
    per f L i / L = i / L := by
  rw [per, Nat.add_mul_div_left _ _ hL, Nat.div_eq_of_lt (hf _ (Nat.mod_lt _ hL)), Nat.zero_add]

theorem per_injective {f : Nat → Nat} {L : Nat} (hf : ∀ i < L, f i < L) (hL : 0 < L)
    (hi : ∀ i < L, ∀ j < L, f i = f j → i = j) : Function.Injective (per f L) := by
  intro i j hij
  have h1 : i / L = j / L := by rw [← per_div hf hL i, ← per_div hf hL j, hij]
  have h2 : f (i % L) = f (j % L) := by rw [← per_mod hf hL i, ← per_mod hf hL j, hij]
  have h3 := hi _ (Nat.mod_lt _ hL) _ (Nat.mod_lt _ hL) h2
  rw [← Nat.div_add_mod i L, ← Nat.div_add_mod j L, h1, h3]

theorem per_surjective {f : Nat → Nat} {L : Nat} (hL : 0 < L)
    (hs : ∀ j < L, ∃ i < L, f i = j) : Function.Surjective (per f L) := by
  intro j
  obtain ⟨i, hi, hij⟩ := hs _ (Nat.mod_lt j hL)
  refine ⟨i + L * (j / L), ?_⟩
  rw [per, Nat.add_mul_mod_self_left, Nat.mod_eq_of_lt hi, hij, Nat.add_mul_div_left _ _ hL,
    Nat.div_eq_of_lt hi, Nat.zero_add, Nat.mod_add_div]

/-- `f` commutes with the shift by `d`. -/
def Shift (f : Nat → Nat) (d : Nat) : Prop := ∀ i, f (i + d) = f i + d

theorem Shift.mul {f : Nat → Nat} {d : Nat} (h : Shift f d) (k : Nat) : Shift f (k * d) := by
  induction k with
  | zero => intro i; simp
  | succ k ih =>
    intro i
    rw [Nat.succ_mul, ← Nat.add_assoc, h, ih, Nat.add_assoc]

theorem Shift.sub {f : Nat → Nat} {d e : Nat} (hd : Shift f d) (he : Shift f e) (hle : e ≤ d) :
    Shift f (d - e) := by
  intro i
  have h1 := he (i + (d - e))
  rw [Nat.add_assoc, Nat.sub_add_cancel hle, hd] at h1
  omega

theorem Shift.gcd {f : Nat → Nat} (d e : Nat) (hd : Shift f d) (he : Shift f e) :
    Shift f (Nat.gcd d e) := by
  induction d, e using Nat.gcd.induction with
  | H0 n => simpa using he
  | H1 m n hm ih =>
    rw [Nat.gcd_rec]
    apply ih _ hd
    have h1 := he.sub (hd.mul (n / m)) (Nat.div_mul_le_self n m)
    have : n % m = n - n / m * m := by
      have := Nat.div_add_mod n m
      rw [Nat.mul_comm] at this; omega
    rwa [this]

/-! ## Prime factors -/

theorem mem_primefactors {n p : Nat} (hn : 0 < n) : p ∈ primefactors n ↔ Nat.Prime p ∧ p ∣ n := by
  unfold primefactors
  simp only [List.mem_filter, List.mem_range, Bool.and_eq_true, decide_eq_true_eq, beq_iff_eq,
    List.all_eq_true, Bool.or_eq_true, bne_iff_ne]
  constructor
  · rintro ⟨hlt, ⟨h2, hd⟩, hall⟩
    refine ⟨?_, Nat.dvd_of_mod_eq_zero hd⟩
    rw [Nat.prime_def_lt]
    refine ⟨h2, ?_⟩
    intro m hm hdvd
    rcases hall m hm with h | h
    · have : m ≠ 0 := by rintro rfl; simp at hdvd; omega
      omega
    · exact absurd (Nat.mod_eq_zero_of_dvd hdvd) h
  · rintro ⟨hp, hd⟩
    have := Nat.le_of_dvd hn hd
    refine ⟨by omega, ⟨hp.two_le, Nat.mod_eq_zero_of_dvd hd⟩, ?_⟩
    intro d hd2
    by_cases hd0 : d < 2
    · left; exact hd0
    · right
      intro h0
      have := (Nat.prime_def_lt.1 hp).2 d hd2 (Nat.dvd_of_mod_eq_zero h0)
      omega

/-! ## The loops of `block_repeats` -/

theorem allE_ok {α : Type} {f : α → Except Err Bool} {g : α → Bool} {l : List α}
    (h : ∀ x ∈ l, f x = .ok (g x)) : allE f l = .ok (l.all g) := by
  induction l with
  | nil => rfl
  | cons a l ih =>
    have ha := h a (by simp)
    have ih := ih (fun x hx => h x (List.mem_cons_of_mem _ hx))
    unfold allE
    rw [ha]
    cases hg : g a
    · simp [hg]
    · simp [hg, ih]

theorem getD_of_lt {l : List Nat} {i : Nat} (h : i < l.length) : l.getD i 0 = l[i] := by
  simp [List.getD_eq_getElem?_getD, h]

theorem length_blocks (T : List Nat) (b q : Nat) :
    ((List.range q).flatMap (fun j => T.map (fun x => j * b + x))).length = q * T.length := by
  induction q with
  | zero => simp
  | succ q ih =>
    rw [List.range_succ, List.flatMap_append, List.length_append, ih]; simp [Nat.succ_mul]

/-- Dividing a sorted list of block-periodic elements. -/
theorem getElem?_flatMap_blocks (T : List Nat) (b q i key : Nat) (hi : i < q) (hk : key < T.length) :
    ((List.range q).flatMap (fun j => T.map (fun x => j * b + x)))[i * T.length + key]? =
      some (i * b + T.getD key 0) := by
  induction q with
  | zero => omega
  | succ q ih =>
    rw [List.range_succ, List.flatMap_append]
    have hlen := length_blocks T b q
    by_cases hiq : i < q
    · rw [List.getElem?_append_left, ih hiq]
      rw [hlen]
      calc i * T.length + key < i * T.length + T.length := by omega
        _ = (i + 1) * T.length := by rw [Nat.succ_mul]
        _ ≤ q * T.length := Nat.mul_le_mul_right _ hiq
    · have : i = q := by omega
      subst this
      rw [List.getElem?_append_right (by rw [hlen]; omega), hlen]
      simp [hk, List.getD_eq_getElem?_getD]

/-- Block-wise repetition of the mapping. -/
def Rep (m : Dict Nat Nat) (b q : Nat) : Prop :=
  ∀ k < b, ∀ i < q, dictFun m (i * b + k) = i * b + dictFun m k

theorem good_lt {m : Dict Nat Nat} (h : Good m) {L : Nat} (hL : ∀ k ∈ m.keys, k < L) {i : Nat} (hi : i < L) :
    dictFun m i < L := by
  by_cases hk : i ∈ m.keys
  · exact hL _ (h.mapsTo hk)
  · rwa [dictFun_of_not_mem hk]

theorem rep_lt {m : Dict Nat Nat} (h : Good m) {b q : Nat} (hq : 0 < q)
    (hL : ∀ k ∈ m.keys, k < q * b) (hr : Rep m b q) {k : Nat} (hk : k < b) : dictFun m k < b := by
  have h1 := hr k hk (q - 1) (by omega)
  have h3 : q * b = (q - 1) * b + b := by
    conv_lhs => rw [show q = (q - 1) + 1 by omega, Nat.succ_mul]
  have h2 : dictFun m ((q - 1) * b + k) < q * b := good_lt h hL (by omega)
  omega

theorem rep_iff_shift {m : Dict Nat Nat} (hg : Good m) {b q : Nat} (hq : 0 < q) (hb : 0 < b)
    (hL : ∀ k ∈ m.keys, k < q * b) : Rep m b q ↔ Shift (per (dictFun m) (q * b)) b := by
  constructor
  · intro hr
    have hlt : ∀ k < b, dictFun m k < b := fun k hk => rep_lt hg hq hL hr hk
    have key : ∀ i, per (dictFun m) (q * b) i = per (dictFun m) b i := by
      intro i
      unfold per
      have hib : i % (q * b) = (i % (q * b) / b) * b + i % b := by
        have h1 := Nat.div_add_mod (i % (q * b)) b
        rw [Nat.mod_mul_left_mod, Nat.mul_comm] at h1
        exact h1.symm
      have hlt2 : i % (q * b) / b < q := by
        rw [Nat.div_lt_iff_lt_mul hb]; exact Nat.mod_lt _ (Nat.mul_pos hq hb)
      conv_lhs => rw [hib]
      rw [hr _ (Nat.mod_lt _ hb) _ hlt2]
      have h2 := Nat.div_add_mod i (q * b)
      have h3 := Nat.div_add_mod i b
      rw [hib] at h2
      omega
    intro i
    rw [key, key, per_add _ hb]
  · intro hs k hk i hi
    have h1 := hs.mul i k
    have h3 : (i + 1) * b ≤ q * b := Nat.mul_le_mul_right _ hi
    rw [Nat.succ_mul] at h3
    rw [per_of_lt _ (by omega), per_of_lt _ (by omega)] at h1
    rw [Nat.add_comm (i * b) k, h1, Nat.add_comm]

theorem sorted_keys_pairwise_lt {m : Dict Nat Nat} (h : (m.keys).Nodup) :
    (sorted m.keys).Pairwise (· < ·) := by
  have h1 := sorted_pairwise m.keys
  have h2 : (sorted m.keys).Nodup := (sorted_perm _).nodup_iff.2 h
  exact (h1.and h2).imp (fun ⟨ha, hb⟩ => Nat.lt_of_le_of_ne ha hb)

theorem pairwise_lt_blocks {T : List Nat} {b : Nat} (hT : T.Pairwise (· < ·)) (hlt : ∀ x ∈ T, x < b) (q : Nat) :
    ((List.range q).flatMap (fun j => T.map (fun x => j * b + x))).Pairwise (· < ·) := by
  induction q with
  | zero => simp
  | succ q ih =>
    rw [List.range_succ, List.flatMap_append, List.pairwise_append]
    refine ⟨ih, ?_, ?_⟩
    · simp only [List.flatMap_cons, List.flatMap_nil, List.append_nil]
      rw [List.pairwise_map]
      exact hT.imp (by intros; omega)
    · intro x hx y hy
      simp only [List.mem_flatMap, List.mem_range, List.mem_map, List.mem_cons, List.not_mem_nil,
        or_false] at hx hy
      obtain ⟨i, hi, a, ha, rfl⟩ := hx
      obtain ⟨j, hj, c, hc, rfl⟩ := hy
      rw [hj]
      have := hlt a ha
      have h3 : (i + 1) * b ≤ q * b := Nat.mul_le_mul_right _ hi
      rw [Nat.succ_mul] at h3
      omega

theorem eq_of_mem_iff_of_lt {l₁ l₂ : List Nat} (h₁ : l₁.Pairwise (· < ·)) (h₂ : l₂.Pairwise (· < ·))
    (h : ∀ x, x ∈ l₁ ↔ x ∈ l₂) : l₁ = l₂ := by
  have n₁ : l₁.Nodup := h₁.imp (fun h => Nat.ne_of_lt h)
  have n₂ : l₂.Nodup := h₂.imp (fun h => Nat.ne_of_lt h)
  exact eq_of_perm_of_le ((List.perm_ext_iff_of_nodup n₁ n₂).2 h)
    (h₁.imp Nat.le_of_lt) (h₂.imp Nat.le_of_lt)

/-- `block_repeats` never raises and decides whether the period can be divided by the prime. -/
theorem blockRepeats_spec {m : Dict Nat Nat} (hg : Good m) {b q : Nat} (hq : 2 ≤ q) (hb : 0 < b)
    (hL : ∀ k ∈ m.keys, k < q * b) :
    ∃ r, blockRepeats m (q * b) q = .ok r ∧ (r = true ↔ Rep m b q) := by
  have hqb : q * b / q = b := Nat.mul_div_cancel_left _ (by omega)
  have hS := sorted_keys_pairwise_lt hg.nodup
  have hSmem : ∀ x, x ∈ sorted m.keys ↔ x ∈ m.keys := fun x => mem_sorted
  -- structure of the sorted keys when the mapping repeats
  have hstruct : Rep m b q →
      sorted m.keys = (List.range q).flatMap
        (fun j => ((List.range b).filter (· ∈ m.keys)).map (fun x => j * b + x)) := by
    intro hr
    apply eq_of_mem_iff_of_lt hS
    · apply pairwise_lt_blocks
      · exact List.Pairwise.filter _ List.pairwise_lt_range
      · intro x hx; simpa using (List.mem_filter.1 hx).1
    · intro x
      rw [hSmem]
      simp only [List.mem_flatMap, List.mem_range, List.mem_map, List.mem_filter, decide_eq_true_eq]
      constructor
      · intro hx
        have hxl := hL x hx
        have hxb := Nat.div_add_mod x b
        rw [Nat.mul_comm] at hxb
        refine ⟨x / b, by rw [Nat.div_lt_iff_lt_mul hb]; exact hxl, x % b, ⟨Nat.mod_lt _ hb, ?_⟩, hxb⟩
        rw [hg.mem_keys_iff_ne]
        intro hc
        have := hr (x % b) (Nat.mod_lt _ hb) (x / b) (by rw [Nat.div_lt_iff_lt_mul hb]; exact hxl)
        rw [hxb, hc, hxb] at this
        exact hg.mem_keys_iff_ne.1 hx this
      · rintro ⟨i, hi, k, ⟨hk, hkm⟩, rfl⟩
        rw [hg.mem_keys_iff_ne] at hkm ⊢
        rw [hr k hk i hi]
        omega
  unfold blockRepeats
  simp only [hqb]
  by_cases hmod : (sorted m.keys).length % q = 0
  swap
  · refine ⟨false, by rw [if_pos hmod], ?_⟩
    simp only [Bool.false_eq_true, false_iff]
    intro hr
    apply hmod
    rw [hstruct hr, length_blocks]
    simp
  rw [if_neg (by simpa using hmod)]
  obtain ⟨mb, hmb⟩ := Nat.dvd_of_mod_eq_zero hmod
  have hmbd : (sorted m.keys).length / q = mb := by
    rw [hmb]; exact Nat.mul_div_cancel_left _ (by omega)
  rw [hmbd]
  have hidx : ∀ key < mb, ∀ i < q, i * mb + key < (sorted m.keys).length := by
    intro key hk i hi
    rw [hmb]
    have h3 : (i + 1) * mb ≤ q * mb := Nat.mul_le_mul_right _ hi
    rw [Nat.succ_mul] at h3
    omega
  -- first loop
  have hloop1 : allE (fun key => allE (fun i => movedCheck (sorted m.keys) mb b key i)
          (List.range' 1 (q - 1)))
          (List.range mb) = .ok ((List.range mb).all (fun key => (List.range' 1 (q - 1)).all (fun i =>
            (sorted m.keys).getD (i * mb + key) 0 == i * b + (sorted m.keys).getD key 0))) := by
    apply allE_ok
    intro key hkey
    apply allE_ok
    intro i hi
    simp only [List.mem_range'_1] at hi
    simp only [List.mem_range] at hkey
    have h1 := hidx key hkey i (by omega)
    have h2 := hidx key hkey 0 (by omega)
    rw [Nat.zero_mul, Nat.zero_add] at h2
    simp [movedCheck, h1, h2, List.getD_eq_getElem?_getD]
  rw [hloop1]
  by_cases hall : ((List.range mb).all (fun key => (List.range' 1 (q - 1)).all (fun i =>
            (sorted m.keys).getD (i * mb + key) 0 == i * b + (sorted m.keys).getD key 0))) = true
  swap
  · rw [Bool.not_eq_true] at hall
    rw [hall]
    refine ⟨false, rfl, ?_⟩
    simp only [Bool.false_eq_true, false_iff]
    intro hr
    rw [Bool.eq_false_iff] at hall
    apply hall
    rw [List.all_eq_true]
    intro key hkey
    rw [List.all_eq_true]
    intro i hi
    simp only [List.mem_range'_1] at hi
    simp only [List.mem_range] at hkey
    have hst := hstruct hr
    have hTlen : ((List.range b).filter (· ∈ m.keys)).length = mb := by
      have := congrArg List.length hst
      rw [length_blocks, hmb] at this
      exact (Nat.eq_of_mul_eq_mul_left (by omega) this).symm
    have e1 := getElem?_flatMap_blocks ((List.range b).filter (· ∈ m.keys)) b q i key (by omega)
      (by omega)
    have e2 := getElem?_flatMap_blocks ((List.range b).filter (· ∈ m.keys)) b q 0 key (by omega)
      (by omega)
    rw [hTlen, ← hst] at e1 e2
    rw [Nat.zero_mul, Nat.zero_add] at e2
    simp only [List.getD_eq_getElem?_getD, e1, e2]
    simp
  rw [hall]
  rw [List.all_eq_true] at hall
  have hall' : ∀ key < mb, ∀ i < q,
      (sorted m.keys).getD (i * mb + key) 0 = i * b + (sorted m.keys).getD key 0 := by
    intro key hkey i hi
    rcases Nat.eq_zero_or_pos i with rfl | hpos
    · simp
    · have := hall key (by simpa using hkey)
      rw [List.all_eq_true] at this
      have := this i (by simp only [List.mem_range'_1]; omega)
      simpa using this
  -- positions of elements below b
  have hbase : ∀ key < mb, (sorted m.keys).getD key 0 < b := by
    intro key hkey
    have h1 := hall' key hkey (q - 1) (by omega)
    have h2 : (sorted m.keys).getD ((q - 1) * mb + key) 0 < q * b := by
      apply hL
      rw [← hSmem]
      rw [getD_of_lt (hidx key hkey (q - 1) (by omega))]
      exact List.getElem_mem _
    have h3 : q * b = (q - 1) * b + b := by
      conv_lhs => rw [show q = (q - 1) + 1 by omega, Nat.succ_mul]
    omega
  -- every moved element is `i * b + key` with `key` moved and below `b`, and conversely
  have hdecomp : ∀ x, x ∈ m.keys → ∃ key < mb, ∃ i < q, x = i * b + (sorted m.keys).getD key 0 := by
    intro x hx
    rw [← hSmem] at hx
    obtain ⟨t, ht, rfl⟩ := List.getElem_of_mem hx
    rw [hmb] at ht
    have hmbpos : 0 < mb := by
      rcases Nat.eq_zero_or_pos mb with h0 | h0
      · rw [h0] at ht; omega
      · exact h0
    refine ⟨t % mb, Nat.mod_lt _ hmbpos, t / mb, by rw [Nat.div_lt_iff_lt_mul hmbpos]; exact ht, ?_⟩
    rw [← hall' (t % mb) (Nat.mod_lt _ hmbpos) (t / mb) (by rw [Nat.div_lt_iff_lt_mul hmbpos]; exact ht)]
    have : t / mb * mb + t % mb = t := by rw [Nat.mul_comm]; exact Nat.div_add_mod t mb
    rw [this, getD_of_lt]
  have hshift : ∀ k ∈ m.keys, k < b → ∀ i < q, i * b + k ∈ m.keys := by
    intro k hk hkb i hi
    obtain ⟨key, hkey, j, hj, rfl⟩ := hdecomp k hk
    have hj0 : j = 0 := by
      rcases Nat.eq_zero_or_pos j with h0 | h0
      · exact h0
      · have : 1 * b ≤ j * b := Nat.mul_le_mul_right _ h0
        omega
    subst hj0
    rw [Nat.zero_mul, Nat.zero_add, ← hall' key hkey i hi, ← hSmem,
      getD_of_lt (hidx key hkey i hi)]
    exact List.getElem_mem _
  have hloop2 : allE (fun key => allE (fun i => mappingCheck m b key i)
          (List.range' 1 (q - 1)))
        (m.keys.filter (fun x => decide (x < b))) = .ok ((m.keys.filter (fun x => decide (x < b))).all (fun key =>
          (List.range' 1 (q - 1)).all (fun i => dictFun m (i * b + key) == i * b + dictFun m key))) := by
    apply allE_ok
    intro key hkey
    apply allE_ok
    intro i hi
    simp only [List.mem_range'_1] at hi
    obtain ⟨hk1, hk2⟩ := List.mem_filter.1 hkey
    have hk2 : key < b := by simpa using hk2
    simp only [mappingCheck, get?_eq_dictFun hk1, get?_eq_dictFun (hshift key hk1 hk2 i (by omega))]
  simp only [hloop2]
  refine ⟨_, rfl, ?_⟩
  rw [List.all_eq_true]
  constructor
  · intro h k hk i hi
    by_cases hkm : k ∈ m.keys
    · rcases Nat.eq_zero_or_pos i with rfl | hpos
      · simp
      · have h1 := h k (List.mem_filter.2 ⟨hkm, by simpa using hk⟩)
        rw [List.all_eq_true] at h1
        simpa using h1 i (by simp only [List.mem_range'_1]; omega)
    · rw [dictFun_of_not_mem hkm, dictFun_of_not_mem]
      intro hc
      obtain ⟨key, hkey, j, hj, he⟩ := hdecomp _ hc
      have hlt := hbase key hkey
      have hmem : (sorted m.keys).getD key 0 ∈ m.keys := by
        have h0 := hidx key hkey 0 (by omega)
        rw [Nat.zero_mul, Nat.zero_add] at h0
        rw [← hSmem, getD_of_lt h0]
        exact List.getElem_mem _
      have e1 : (i * b + k) % b = k := by
        rw [Nat.add_comm, Nat.add_mul_mod_self_right, Nat.mod_eq_of_lt hk]
      have e2 : (j * b + (sorted m.keys).getD key 0) % b = (sorted m.keys).getD key 0 := by
        rw [Nat.add_comm, Nat.add_mul_mod_self_right, Nat.mod_eq_of_lt hlt]
      rw [he, e2] at e1
      exact hkm (e1 ▸ hmem)
  · intro h key hkey
    obtain ⟨hk1, hk2⟩ := List.mem_filter.1 hkey
    rw [List.all_eq_true]
    intro i hi
    simp only [List.mem_range'_1] at hi
    simpa using h key (by simpa using hk2) i (by omega)

end Verif.P
