import Verif.Perm.Basic

/-! Helper lemmas: period reduction, well-formedness and meaning of constructed permutations. -/

namespace Verif.P
open Verif.Py

/-! ## `reduce_period` -/

theorem Good.per_lt {m : Dict Nat Nat} (h : Good m) {L : Nat} (hL : ∀ k ∈ m.keys, k < L) :
    ∀ i < L, dictFun m i < L := fun _ hi => good_lt h hL hi

/-- No prime can divide the period any further. -/
def Irred (m : Dict Nat Nat) (L : Nat) : Prop :=
  ∀ q, Nat.Prime q → q ∣ L → ¬ Shift (per (dictFun m) L) (L / q)

theorem blockRepeats_shift {m : Dict Nat Nat} (hg : Good m) {L q : Nat} (hL0 : 0 < L)
    (hL : ∀ k ∈ m.keys, k < L) (hq : Nat.Prime q) (hd : q ∣ L) :
    ∃ r, blockRepeats m L q = .ok r ∧ (r = true ↔ Rep m (L / q) q) ∧
      (Rep m (L / q) q ↔ Shift (per (dictFun m) L) (L / q)) := by
  obtain ⟨b, rfl⟩ := hd
  have hb : 0 < b := Nat.pos_of_mul_pos_left hL0
  have hqb : q * b / q = b := Nat.mul_div_cancel_left _ hq.pos
  rw [hqb]
  obtain ⟨r, h1, h2⟩ := blockRepeats_spec hg hq.two_le hb hL
  exact ⟨r, h1, h2, rep_iff_shift hg hq.pos hb hL⟩

theorem findPrime_spec {m : Dict Nat Nat} (hg : Good m) {L : Nat} (hL0 : 0 < L)
    (hL : ∀ k ∈ m.keys, k < L) (ps : List Nat) (hps : ∀ q ∈ ps, Nat.Prime q ∧ q ∣ L) :
    (findPrime m L ps = .ok none ∧ ∀ q ∈ ps, ¬ Shift (per (dictFun m) L) (L / q)) ∨
    (∃ q, findPrime m L ps = .ok (some q) ∧ q ∈ ps ∧ Rep m (L / q) q) := by
  induction ps with
  | nil => left; exact ⟨rfl, by simp⟩
  | cons q ps ih =>
    obtain ⟨hq, hd⟩ := hps q (by simp)
    obtain ⟨r, h1, h2, h3⟩ := blockRepeats_shift hg hL0 hL hq hd
    unfold findPrime
    rw [h1]
    cases r with
    | true => right; exact ⟨q, rfl, by simp, h2.1 rfl⟩
    | false =>
      have hns : ¬ Shift (per (dictFun m) L) (L / q) := by
        intro hs; exact absurd (h2.2 (h3.2 hs)) (by simp)
      rcases ih (fun q hq => hps q (List.mem_cons_of_mem _ hq)) with ⟨ha, hb⟩ | ⟨q', ha, hb, hc⟩
      · left
        refine ⟨ha, ?_⟩
        intro q' hq'
        rcases List.mem_cons.1 hq' with rfl | hq'
        · exact hns
        · exact hb q' hq'
      · right; exact ⟨q', ha, List.mem_cons_of_mem _ hb, hc⟩

/-- Cutting a repeating mapping down to its first block. -/
theorem good_filter {m : Dict Nat Nat} (hg : Good m) {b q : Nat} (hq : 0 < q)
    (hL : ∀ k ∈ m.keys, k < q * b) (hr : Rep m b q) :
    Good (m.filter (fun kv => kv.1 < b)) ∧
      (∀ k ∈ Dict.keys (m.filter (fun kv => kv.1 < b)), k < b) ∧
      (∀ k < b, dictFun (m.filter (fun kv => kv.1 < b)) k = dictFun m k) := by
  have hkeys : Dict.keys (m.filter (fun kv => decide (kv.1 < b))) = m.keys.filter (fun k => decide (k < b)) :=
    keys_filter_key m (fun k => decide (k < b))
  have hn : (Dict.keys (m.filter (fun kv => kv.1 < b))).Nodup := by
    rw [hkeys]; exact hg.nodup.filter _
  have hfun : ∀ k < b, dictFun (m.filter (fun kv => kv.1 < b)) k = dictFun m k := by
    intro k hk
    unfold dictFun
    rw [get?_filter hg.nodup]
    cases h : m.get? k with
    | none => simp
    | some v => simp [hk, Option.filter]
  refine ⟨⟨hn, ?_, ?_⟩, ?_, hfun⟩
  · rw [values_eq hn]
    apply perm_map_of_inj hn
    · intro i hi j hj hij
      rw [hkeys, List.mem_filter] at hi hj
      rw [hfun i (by simpa using hi.2), hfun j (by simpa using hj.2)] at hij
      exact hg.injective hij
    · intro i hi
      rw [hkeys, List.mem_filter] at hi ⊢
      have hib : i < b := by simpa using hi.2
      rw [hfun i hib]
      exact ⟨hg.mapsTo hi.1, by simpa using rep_lt hg hq hL hr hib⟩
  · intro kv hkv
    exact hg.nofix kv (List.mem_filter.1 hkv).1
  · intro k hk
    rw [hkeys, List.mem_filter] at hk
    simpa using hk.2

theorem per_congr {f g : Nat → Nat} {L : Nat} (hL : 0 < L) (h : ∀ i < L, f i = g i) : per f L = per g L := by
  funext i; unfold per; rw [h _ (Nat.mod_lt _ hL)]

theorem per_eq_of_rep {m : Dict Nat Nat} (hg : Good m) {b q : Nat} (hq : 0 < q) (hb : 0 < b)
    (hL : ∀ k ∈ m.keys, k < q * b) (hr : Rep m b q) :
    per (dictFun m) (q * b) = per (dictFun m) b := by
  have hs := (rep_iff_shift hg hq hb hL).1 hr
  funext i
  have h1 := (hs.mul (i / b)) (i % b)
  have h2 : i % b + i / b * b = i := by rw [Nat.mul_comm]; exact Nat.mod_add_div i b
  have hbq : b ≤ q * b := Nat.le_mul_of_pos_left b hq
  rw [h2, per_of_lt _ (Nat.lt_of_lt_of_le (Nat.mod_lt _ hb) hbq)] at h1
  rw [h1, per, Nat.mul_comm]

theorem reduceAux_spec (fuel : Nat) : ∀ (m : Dict Nat Nat) (L : Nat), Good m → 0 < L →
    (∀ k ∈ m.keys, k < L) → L < fuel →
    ∃ m' L', reduceAux fuel m L = .ok (m', L') ∧ Good m' ∧ 0 < L' ∧ (∀ k ∈ m'.keys, k < L') ∧
      per (dictFun m') L' = per (dictFun m) L ∧ Irred m' L' ∧ L' ∣ L := by
  induction fuel with
  | zero => intro m L _ _ _ h; omega
  | succ fuel ih =>
    intro m L hg hL0 hL hf
    unfold reduceAux
    rcases findPrime_spec hg hL0 hL (primefactors L) (fun q hq => (mem_primefactors hL0).1 hq) with
      ⟨h1, h2⟩ | ⟨q, h1, h2, h3⟩
    · rw [h1]
      refine ⟨m, L, rfl, hg, hL0, hL, rfl, ?_, dvd_refl L⟩
      intro q hq hd
      exact h2 q ((mem_primefactors hL0).2 ⟨hq, hd⟩)
    · rw [h1]
      obtain ⟨hq, b, hb⟩ := (mem_primefactors hL0).1 h2
      have hb0 : 0 < b := by
        rcases Nat.eq_zero_or_pos b with h | h
        · subst h; omega
        · exact h
      have hqb : L / q = b := by rw [hb]; exact Nat.mul_div_cancel_left _ hq.pos
      rw [hqb] at h3
      simp only [hqb]
      subst hb
      obtain ⟨g1, g2, g3⟩ := good_filter hg hq.pos hL h3
      have hlt : b < fuel := by
        have : 2 * b ≤ q * b := Nat.mul_le_mul_right _ hq.two_le
        omega
      obtain ⟨m', L', e1, e2, e3, e4, e5, e6, e7⟩ := ih _ b g1 hb0 g2 hlt
      refine ⟨m', L', e1, e2, e3, e4, ?_, e6, Dvd.dvd.mul_left e7 q⟩
      rw [e5, per_eq_of_rep hg hq.pos hb0 hL h3]
      exact per_congr hb0 g3

/-- An irreducible period divides every shift. -/
theorem Irred.dvd {m : Dict Nat Nat} {L d : Nat} (hL0 : 0 < L) (hi : Irred m L)
    (hd : Shift (per (dictFun m) L) d) : L ∣ d := by
  have hg := Shift.gcd d L hd (fun i => per_add _ hL0 i)
  by_cases hgl : Nat.gcd d L = L
  · rw [← hgl]; exact Nat.gcd_dvd_left d L
  · exfalso
    obtain ⟨k, hk⟩ := Nat.gcd_dvd_right d L
    have hgpos : 0 < Nat.gcd d L := Nat.gcd_pos_of_pos_right d hL0
    have hk1 : k ≠ 1 := by rintro rfl; rw [Nat.mul_one] at hk; exact hgl hk.symm
    obtain ⟨q, hq, j, hj⟩ := Nat.exists_prime_and_dvd hk1
    apply hi q hq
    · rw [hk, hj]; exact ⟨Nat.gcd d L * j, by rw [Nat.mul_left_comm]⟩
    · have : L / q = j * Nat.gcd d L := by
        conv_lhs => rw [hk, hj, Nat.mul_left_comm, Nat.mul_div_cancel_left _ hq.pos, Nat.mul_comm]
      rw [this]
      exact hg.mul j

/-! ## Well-formed permutations -/

/-- What the constructor guarantees about the attributes. -/
structure WF (p : Perm) : Prop where
  good : Good p.mapping
  neutral_iff : p.neutral = true ↔ p.mapping = []
  neutral_perilen : p.neutral = true → p.perilen = none ∧ p.length = 0
  finite_length : p.neutral = false → p.perilen = none → p.length = maxNat p.mapping.keys + 1
  per_length : ∀ l, p.perilen = some l → p.length = l
  per_ge : ∀ l, p.perilen = some l → 2 ≤ l
  per_lt : ∀ l, p.perilen = some l → ∀ k ∈ p.mapping.keys, k < l
  irred : ∀ l, p.perilen = some l → Irred p.mapping l

theorem good_nil : Good [] := ⟨by simp, by simp, by simp⟩

theorem wf_neutral : WF neutralPerm where
  good := good_nil
  neutral_iff := by simp [neutralPerm]
  neutral_perilen := by simp [neutralPerm]
  finite_length := by simp [neutralPerm]
  per_length := by simp [neutralPerm]
  per_ge := by simp [neutralPerm]
  per_lt := by simp [neutralPerm]
  irred := by simp [neutralPerm]

theorem le_foldl_max (l : List Nat) (a : Nat) : a ≤ l.foldl max a ∧ ∀ x ∈ l, x ≤ l.foldl max a := by
  induction l generalizing a with
  | nil => simp
  | cons b l ih =>
    obtain ⟨h1, h2⟩ := ih (max a b)
    rw [List.foldl_cons]
    refine ⟨by omega, ?_⟩
    intro x hx
    rcases List.mem_cons.1 hx with rfl | hx
    · omega
    · exact h2 x hx

theorem foldl_max_mem (l : List Nat) (a : Nat) : l.foldl max a = a ∨ l.foldl max a ∈ l := by
  induction l generalizing a with
  | nil => simp
  | cons b l ih =>
    rw [List.foldl_cons]
    rcases ih (max a b) with h | h
    · rw [h]
      rcases Nat.le_total a b with h1 | h1
      · right; simp [h1]
      · left; simp [h1]
    · right; exact List.mem_cons_of_mem _ h

theorem le_maxNat {l : List Nat} {x : Nat} (h : x ∈ l) : x ≤ maxNat l := (le_foldl_max l 0).2 x h

theorem maxNat_mem {l : List Nat} (h : l ≠ []) : maxNat l ∈ l := by
  rcases foldl_max_mem l 0 with h1 | h1
  · obtain ⟨x, hx⟩ := List.exists_mem_of_ne_nil l h
    have := le_maxNat hx
    have h2 : maxNat l = 0 := h1
    rw [h2] at this
    have : x = 0 := by omega
    subst this
    rw [h2]; exact hx
  · exact h1

theorem maxNat_lt_iff {l : List Nat} (h : l ≠ []) {n : Nat} : maxNat l < n ↔ ∀ x ∈ l, x < n :=
  ⟨fun h1 _ hx => Nat.lt_of_le_of_lt (le_maxNat hx) h1, fun h1 => h1 _ (maxNat_mem h)⟩

theorem get_finite {p : Perm} (hw : WF p) (h : p.perilen = none) : p.get = dictFun p.mapping := by
  funext i
  unfold Perm.get
  split
  · rename_i hn
    rw [hw.neutral_iff] at hn
    simp [dictFun, hn]
  · rw [h]; rfl

theorem get_periodic {p : Perm} (hw : WF p) {l : Nat} (h : p.perilen = some l) :
    p.get = per (dictFun p.mapping) l := by
  funext i
  have hn : ¬ p.neutral = true := by
    intro hn; have := (hw.neutral_perilen hn).1; rw [h] at this; cases this
  unfold Perm.get
  rw [if_neg hn, h]
  simp only [per, dictFun]
  have := Nat.div_add_mod i l
  cases p.mapping.get? (i % l) with
  | none => simp only [Option.getD_none]; omega
  | some v => simp only [Option.getD_some]; omega

theorem finish_none {m : Dict Nat Nat} (hg : Good m) :
    ∃ p, finish m none = .ok p ∧ WF p ∧ p.perilen = none ∧ p.get = dictFun m := by
  unfold finish
  by_cases hm : m = []
  · subst hm
    refine ⟨neutralPerm, by simp, wf_neutral, rfl, ?_⟩
    rw [get_finite wf_neutral rfl]; rfl
  · rw [if_neg hm]
    refine ⟨_, rfl, ?_, rfl, ?_⟩
    · constructor
      · exact hg
      · simp [hm]
      · simp
      · simp
      · simp
      · simp
      · simp
      · simp
    · funext i; simp [Perm.get, dictFun]

theorem keys_ne_nil {m : Dict Nat Nat} (hm : m ≠ []) : m.keys ≠ [] := by
  cases m with
  | nil => exact absurd rfl hm
  | cons p m => simp

theorem good_ne_id {m : Dict Nat Nat} (hg : Good m) (hm : m ≠ []) : ∃ k ∈ m.keys, dictFun m k ≠ k := by
  obtain ⟨k, hk⟩ := List.exists_mem_of_ne_nil _ (keys_ne_nil hm)
  exact ⟨k, hk, hg.mem_keys_iff_ne.1 hk⟩

theorem finish_some {m : Dict Nat Nat} (hg : Good m) (hm : m ≠ []) {L : Nat} (h2 : 2 ≤ L)
    (hL : ∀ k ∈ m.keys, k < L) :
    ∃ p l, finish m (some L) = .ok p ∧ WF p ∧ p.perilen = some l ∧ l ∣ L ∧ p.get = per (dictFun m) L := by
  unfold finish
  rw [if_neg hm]
  simp only
  rw [if_neg (by omega), if_neg (by rw [maxNat_lt_iff (keys_ne_nil hm)]; simpa using hL)]
  obtain ⟨m', L', e1, e2, e3, e4, e5, e6, e7⟩ := reduceAux_spec (L + 1) m L hg (by omega) hL (by omega)
  unfold reducePeriod
  rw [e1]
  have hm' : m' ≠ [] := by
    rintro rfl
    obtain ⟨k, hk, hk2⟩ := good_ne_id hg hm
    have := congrFun e5 k
    rw [per_of_lt _ (hL k hk)] at this
    apply hk2
    rw [← this]
    simp only [per, dictFun, Dict.get?_nil, Option.getD_none]
    exact Nat.mod_add_div k L'
  have hL2 : 2 ≤ L' := by
    obtain ⟨k, hk, hk2⟩ := good_ne_id e2 hm'
    have h3 := e4 k hk
    have h4 := e4 _ (e2.mapsTo hk)
    omega
  have hw : WF ⟨false, m', some L', L'⟩ := by
    constructor
    · exact e2
    · simp [hm']
    · simp
    · simp
    · intro l hl; simpa using hl
    · intro l hl; simp at hl; omega
    · intro l hl; simp at hl; subst hl; exact e4
    · intro l hl; simp at hl; subst hl; exact e6
  refine ⟨_, L', rfl, hw, rfl, e7, ?_⟩
  rw [get_periodic hw rfl]
  exact e5

theorem finish_some_error {m : Dict Nat Nat} (hm : m ≠ []) {L : Nat} (h : ¬ (2 ≤ L ∧ ∀ k ∈ m.keys, k < L)) :
    finish m (some L) = .error .perilenTooSmall := by
  unfold finish
  rw [if_neg hm]
  simp only
  by_cases h2 : 2 ≤ L
  · rw [if_neg (by omega), if_pos]
    rw [maxNat_lt_iff (keys_ne_nil hm)]
    exact fun h3 => h ⟨h2, h3⟩
  · rw [if_pos h2]

theorem WF.get_bijective {p : Perm} (hw : WF p) : Function.Bijective p.get := by
  cases hp : p.perilen with
  | none => rw [get_finite hw hp]; exact ⟨hw.good.injective, hw.good.surjective⟩
  | some l =>
    rw [get_periodic hw hp]
    have h2 := hw.per_ge l hp
    have hlt := hw.per_lt l hp
    constructor
    · exact per_injective (hw.good.per_lt hlt) (by omega) (fun i _ j _ h => hw.good.injective h)
    · apply per_surjective (by omega)
      intro j hj
      obtain ⟨i, hi⟩ := hw.good.surjective j
      refine ⟨i, ?_, hi⟩
      by_cases hik : i ∈ p.mapping.keys
      · exact hlt i hik
      · rw [dictFun_of_not_mem hik] at hi; omega

/-- The mapping can be read off from the function. -/
theorem WF.get?_eq {p : Perm} (hw : WF p) (k : Nat) :
    p.mapping.get? k = if (∀ l, p.perilen = some l → k < l) ∧ p.get k ≠ k then some (p.get k) else none := by
  cases hp : p.perilen with
  | none =>
    rw [get_finite hw hp]
    simp only [reduceCtorEq, false_implies, implies_true, true_and]
    by_cases hk : k ∈ p.mapping.keys
    · rw [if_pos (hw.good.mem_keys_iff_ne.1 hk), get?_eq_dictFun hk]
    · rw [if_neg (by rw [← hw.good.mem_keys_iff_ne]; exact hk), Dict.get?_eq_none.2 hk]
  | some l =>
    rw [get_periodic hw hp]
    have hlt := hw.per_lt l hp
    by_cases hk : k ∈ p.mapping.keys
    · have := hlt k hk
      rw [per_of_lt _ this, if_pos ⟨by intro l' h'; cases h'; exact this, hw.good.mem_keys_iff_ne.1 hk⟩,
        get?_eq_dictFun hk]
    · rw [Dict.get?_eq_none.2 hk, if_neg]
      rintro ⟨h1, h2⟩
      have := h1 l rfl
      rw [per_of_lt _ this, ← hw.good.mem_keys_iff_ne] at h2
      exact hk h2

theorem WF.neutral_iff_get {p : Perm} (hw : WF p) : p.neutral = true ↔ ∀ i, p.get i = i := by
  constructor
  · intro h i; simp [Perm.get, h]
  · intro h
    rw [hw.neutral_iff]
    by_contra hm
    obtain ⟨k, hk⟩ := List.exists_mem_of_ne_nil _ (keys_ne_nil hm)
    obtain ⟨v, hv⟩ := Dict.mem_keys_iff.1 hk
    rw [hw.get?_eq, if_neg (fun h1 => h1.2 (h k))] at hv
    cases hv

theorem WF.shift {p : Perm} (hw : WF p) {l : Nat} (h : p.perilen = some l) : Shift p.get l := by
  rw [get_periodic hw h]
  intro i
  exact per_add _ (by have := hw.per_ge l h; omega) i

theorem WF.perilen_dvd {p : Perm} (hw : WF p) {l : Nat} (h : p.perilen = some l) {d : Nat}
    (hd : Shift p.get d) : l ∣ d := by
  rw [get_periodic hw h] at hd
  exact (hw.irred l h).dvd (by have := hw.per_ge l h; omega) hd

/-- A periodic permutation moves arbitrarily large numbers. -/
theorem WF.periodic_unbounded {p : Perm} (hw : WF p) {l : Nat} (h : p.perilen = some l) (n : Nat) :
    ∃ k ≥ n, p.get k ≠ k := by
  have hm : p.mapping ≠ [] := by
    intro hm
    have := (hw.neutral_perilen (hw.neutral_iff.2 hm)).1
    rw [h] at this; cases this
  obtain ⟨k, hk, hk2⟩ := good_ne_id hw.good hm
  have h2 := hw.per_ge l h
  refine ⟨k + n * l, ?_, ?_⟩
  · have : n * 1 ≤ n * l := Nat.mul_le_mul_left _ (by omega)
    omega
  · rw [(hw.shift h).mul n k, get_periodic hw h, per_of_lt _ (hw.per_lt l h k hk)]
    omega

theorem WF.finite_bounded {p : Perm} (hw : WF p) (h : p.perilen = none) {k : Nat} (hk : p.length ≤ k) :
    p.get k = k := by
  rw [get_finite hw h]
  apply dictFun_of_not_mem
  intro hc
  cases hn : p.neutral with
  | true => rw [hw.neutral_iff] at hn; rw [hn] at hc; simp at hc
  | false =>
    have := hw.finite_length hn h
    have := le_maxNat hc
    omega

theorem WF.perilen_eq_of_get {p q : Perm} (hp : WF p) (hq : WF q) (h : p.get = q.get) :
    p.perilen = q.perilen := by
  cases h1 : p.perilen with
  | none =>
    cases h2 : q.perilen with
    | none => rfl
    | some l =>
      obtain ⟨k, hk, hk2⟩ := hq.periodic_unbounded h2 p.length
      rw [← h, hp.finite_bounded h1 hk] at hk2
      exact absurd rfl hk2
  | some l =>
    cases h2 : q.perilen with
    | none =>
      obtain ⟨k, hk, hk2⟩ := hp.periodic_unbounded h1 q.length
      rw [h, hq.finite_bounded h2 hk] at hk2
      exact absurd rfl hk2
    | some l' =>
      have e1 := hp.perilen_dvd h1 (h ▸ hq.shift h2)
      have e2 := hq.perilen_dvd h2 (h ▸ hp.shift h1)
      rw [Nat.dvd_antisymm e1 e2]

theorem WF.eq_iff {p q : Perm} (hp : WF p) (hq : WF q) : p.eq q = true ↔ ∀ i, p.get i = q.get i := by
  unfold Perm.eq
  split
  · rename_i h
    rw [Bool.and_eq_true] at h
    simp only [true_iff]
    intro i
    rw [hp.neutral_iff_get.1 h.1, hq.neutral_iff_get.1 h.2]
  · rw [Bool.and_eq_true, Dict.eq_iff hp.good.nodup hq.good.nodup, beq_iff_eq]
    constructor
    · rintro ⟨h1, h2⟩ i
      have h3 : dictFun p.mapping = dictFun q.mapping := by funext k; simp [dictFun, h1]
      cases h4 : p.perilen with
      | none => rw [get_finite hp h4, get_finite hq (h2 ▸ h4), h3]
      | some l => rw [get_periodic hp h4, get_periodic hq (h2 ▸ h4), h3]
    · intro h
      have h' : p.get = q.get := funext h
      have hper := WF.perilen_eq_of_get hp hq h'
      refine ⟨?_, hper⟩
      intro k
      rw [hp.get?_eq, hq.get?_eq, h', hper]

end Verif.P
