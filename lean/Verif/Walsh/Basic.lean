import Verif.Walsh.Alg
import Verif.Perm.Ops

/-! # What the attributes of a `WalshPerm` mean -/

namespace Verif.W
open Verif.Py Verif.BV Verif.P
open Verif.A hiding Mat
open Verif.SG (Mat)

/-- transposed binary matrix -/
def tr (B : Nat → Nat → Bool) (i j : Nat) : Bool := B j i

theorem Outside.tr {d : Nat} {B : Nat → Nat → Bool} (h : Outside d B) : Outside d (tr B) := by
  intro i j hij
  rw [show W.tr B i j = B j i from rfl, h j i hij.symm]
  simp [eq_comm]

theorem outside_tr {d : Nat} {B : Nat → Nat → Bool} : Outside d (tr B) ↔ Outside d B :=
  ⟨fun h => h.tr, fun h => h.tr⟩

theorem Outside.mono {d n : Nat} {B : Nat → Nat → Bool} (h : Outside d B) (hn : d ≤ n) : Outside n B :=
  fun i j hij => h i j (by omega)

theorem act_two_pow_ge {d k : Nat} (B : Nat → Nat → Bool) (hk : d ≤ k) : act d B (2 ^ k) = 2 ^ k := by
  apply Nat.eq_of_testBit_eq
  intro j
  rw [testBit_act]
  by_cases hj : j < d
  · rw [if_pos hj, bsum_false, Nat.testBit_two_pow_of_ne (by omega)]
    intro i hi
    rw [Nat.testBit_two_pow_of_ne (by omega)]; simp
  · rw [if_neg hj]

/-- the dictionary of a `Vector` -/
def vecD (d : Nat) (f : Nat → Nat) : Vec := (tab (List.range d) f).filter fun kv => 2 ^ kv.1 ≠ kv.2

theorem vecD_mono {d n : Nat} (h : d ≤ n) {f : Nat → Nat} (hf : ∀ k, d ≤ k → f k = 2 ^ k) : vecD n f = vecD d f := by
  induction n with
  | zero => have : d = 0 := by omega
            subst this; rfl
  | succ n ih =>
    by_cases hd : d = n + 1
    · subst hd; rfl
    · rw [← ih (by omega)]
      unfold vecD tab
      rw [List.range_succ, List.map_append, List.filter_append]
      simp [hf n (by omega)]

theorem get_vecD (d : Nat) (f : Nat → Nat) (k : Nat) : Vec.get (vecD d f) k = if k < d then f k else 2 ^ k := by
  unfold Vec.get vecD
  rw [get?_filter (by rw [keys_tab]; exact List.nodup_range), get?_tab]
  by_cases hk : k < d
  · simp only [List.mem_range, hk, if_true]
    by_cases h : 2 ^ k = f k
    · simp [Option.filter, h]
    · simp [Option.filter, h]
  · simp [hk]

theorem mem_keys_vecD {d : Nat} {f : Nat → Nat} {k : Nat} : k ∈ (vecD d f).keys ↔ k < d ∧ f k ≠ 2 ^ k := by
  unfold vecD Dict.keys
  simp only [List.mem_map, List.mem_filter, tab, List.mem_range]
  constructor
  · rintro ⟨kv, ⟨⟨i, hi, rfl⟩, h⟩, rfl⟩
    exact ⟨hi, fun e => by simp [e] at h⟩
  · rintro ⟨h1, h2⟩
    exact ⟨(k, f k), ⟨⟨k, h1, rfl⟩, by simpa using fun e => h2 e.symm⟩, rfl⟩

theorem nodup_vecD (d : Nat) (f : Nat → Nat) : ((vecD d f).keys).Nodup := by
  have : ((vecD d f).keys).Sublist (tab (List.range d) f).keys := by
    unfold Dict.keys vecD; exact List.Sublist.map _ (List.filter_sublist)
  apply this.nodup
  rw [keys_tab]; exact List.nodup_range

theorem ofList_map (n : Nat) (f : Nat → Nat) : Vec.ofList ((List.range n).map f) = vecD n f := by
  unfold Vec.ofList
  have h : (((List.range n).map f).zipIdx.map fun p => (p.2, p.1)) = tab (List.range n) f := by
    apply List.ext_getElem?
    intro i
    unfold tab
    simp only [List.getElem?_map, List.getElem?_zipIdx]
    by_cases hi : i < n
    · simp [List.getElem?_range hi]
    · simp [List.getElem?_eq_none (by simpa using hi : (List.range n).length ≤ i)]
  rw [h]
  exact ofPairs_filter (by rw [keys_tab]; exact List.nodup_range) _

theorem length_vecD_le (d : Nat) (f : Nat → Nat) : Vec.length (vecD d f) ≤ d := by
  unfold Vec.length
  split
  · omega
  · rename_i h
    have := (mem_keys_vecD.1 (maxNat_mem (keys_ne_nil h))).1
    omega

theorem extend_vecD {d n : Nat} (f : Nat → Nat) (h : d ≤ n) :
    Vec.extendToLength (vecD d f) n = .ok ((List.range n).map fun k => if k < d then f k else 2 ^ k) := by
  unfold Vec.extendToLength
  rw [if_pos (le_trans (length_vecD_le d f) h)]
  congr 1
  apply List.map_congr_left
  intro k _
  exact get_vecD d f k

/-! ## constructor -/

/-- the matrix given to the constructor, continued by the identity -/
def matB (N : Nat) (g : Nat → Nat → Int) (i j : Nat) : Bool := if i < N ∧ j < N then decide (g i j = 1) else decide (i = j)

/-- zeros and ones -/
def Bin (N : Nat) (g : Nat → Nat → Int) : Prop := ∀ i < N, ∀ j < N, g i j = 0 ∨ g i j = 1

theorem outside_matB (N : Nat) (g : Nat → Nat → Int) : Outside N (matB N g) := by
  intro i j h
  unfold matB
  rw [if_neg (by omega)]

theorem matB_entry {N : Nat} {g : Nat → Nat → Int} (hb : Bin N g) {i j : Nat} (hi : i < N) (hj : j < N) :
    g i j = if matB N g i j then 1 else 0 := by
  have : matB N g i j = decide (g i j = 1) := by unfold matB; rw [if_pos ⟨hi, hj⟩]
  rw [this]
  rcases hb i hi j hj with h | h <;> simp [h]

theorem mapM_entry {n : Nat} {g : Nat → Int} {b : Nat → Bool} (h : ∀ k < n, g k = if b k then 1 else 0) :
    mk { vector := some (.list ((List.range n).map g)) } = .ok ⟨(List.range n).map b⟩ := by
  have : (List.range n).map g = ((List.range n).map b).map fun b => (b.toNat : Int) := by
    rw [List.map_map]
    apply List.map_congr_left
    intro k hk
    rw [h k (List.mem_range.1 hk)]
    cases hb : b k <;> simp [hb]
  rw [this]
  exact ofBools_eq _

theorem matrixToVector_spec {N c : Nat} {g : Nat → Nat → Int} (hb : Bin N g) (byRow : Bool) :
    matrixToVector ⟨N, c, g⟩ byRow =
      .ok ((List.range N).map fun k => act N (if byRow then tr (matB N g) else matB N g) (2 ^ k)) := by
  unfold matrixToVector
  apply mapM_range_ok
  intro i hi
  cases byRow
  · simp only [Bool.false_eq_true, if_false]
    rw [mapM_entry (b := fun j => matB N g j i) (fun k hk => matB_entry hb hk hi)]
    simp only
    rw [intval_eq, act_two_pow _ hi]
  · simp only [if_true]
    rw [mapM_entry (b := fun j => matB N g i j) (fun k hk => matB_entry hb hi hk)]
    simp only
    rw [intval_eq, act_two_pow _ hi]
    rfl

theorem sum_eq_one {n m : Nat} (hm : m = n + 1) {f : Nat → Int} (hf : ∀ k < n + 1, f k = 0 ∨ f k = 1) (hl : f n = 1) :
    ((List.range m).map f).sum = 1 ↔ ∀ k < n, f k = 0 := by
  subst hm
  rw [List.range_succ, List.map_append, List.sum_append]
  have : 0 ≤ ((List.range n).map f).sum ∧ (((List.range n).map f).sum = 0 ↔ ∀ k < n, f k = 0) := by
    clear hl
    induction n with
    | zero => simp
    | succ n ih =>
      obtain ⟨h1, h2⟩ := ih (fun k hk => hf k (by omega))
      rw [List.range_succ, List.map_append, List.sum_append]
      have hn := hf n (by omega)
      simp only [List.map_cons, List.map_nil, List.sum_cons, List.sum_nil]
      constructor
      · omega
      · constructor
        · intro h k hk
          by_cases hkn : k = n
          · subst hkn; omega
          · exact h2.1 (by omega) k (by omega)
        · intro h
          have h3 := h2.2 (fun k hk => h k (by omega))
          have h4 := h n (by omega)
          omega
  simp only [List.map_cons, List.map_nil, List.sum_cons, List.sum_nil, hl]
  rw [← this.2]
  omega

theorem shrink_cond {N : Nat} {g : Nat → Nat → Int} (hb : Bin N g) {d : Nat} (hd : d + 2 ≤ N) (ho : Outside (d + 2) (matB N g)) :
    (((List.range (d + 2)).map fun x => g (d + 1) x).sum = ((List.range (d + 2)).map fun x => g x (d + 1)).sum ∧
      ((List.range (d + 2)).map fun x => g x (d + 1)).sum = g (d + 1) (d + 1) ∧ g (d + 1) (d + 1) = 1) ↔ Outside (d + 1) (matB N g) := by
  have e : ∀ i < N, ∀ j < N, matB N g i j = decide (g i j = 1) := by
    intro i hi j hj; unfold matB; rw [if_pos ⟨hi, hj⟩]
  constructor
  · rintro ⟨h1, h2, h3⟩
    have hr := (sum_eq_one (m := d + 2) rfl (f := fun k => g (d + 1) k) (fun k hk => hb _ (by omega) _ (by omega)) h3).1 (by omega)
    have hc := (sum_eq_one (m := d + 2) rfl (f := fun k => g k (d + 1)) (fun k hk => hb _ (by omega) _ (by omega)) h3).1 (by omega)
    intro i j hij
    by_cases hbig : d + 2 ≤ i ∨ d + 2 ≤ j
    · exact ho i j hbig
    · rw [e i (by omega) j (by omega)]
      by_cases hi : i = d + 1
      · subst hi
        by_cases hj : j = d + 1
        · subst hj; simp [h3]
        · have hj' : ¬ d + 1 = j := by omega
          rw [hr j (by omega)]; simp [hj']
      · have hj : j = d + 1 := by omega
        subst hj
        rw [hc i (by omega)]; simp [hi]
  · intro h
    have h3 : g (d + 1) (d + 1) = 1 := by
      have := h (d + 1) (d + 1) (by omega)
      rw [e _ (by omega) _ (by omega)] at this
      simpa using this
    have hr := (sum_eq_one (m := d + 2) rfl (f := fun k => g (d + 1) k) (fun k hk => hb _ (by omega) _ (by omega)) h3).2 (by
      intro k hk
      have := h (d + 1) k (by omega)
      rw [e _ (by omega) _ (by omega)] at this
      have hne : ¬ d + 1 = k := by omega
      simp only [hne, decide_false, decide_eq_false_iff_not] at this
      rcases hb (d + 1) (by omega) k (by omega) with h | h
      · exact h
      · exact absurd h this)
    have hc := (sum_eq_one (m := d + 2) rfl (f := fun k => g k (d + 1)) (fun k hk => hb _ (by omega) _ (by omega)) h3).2 (by
      intro k hk
      have := h k (d + 1) (by omega)
      rw [e _ (by omega) _ (by omega)] at this
      have hne : ¬ k = d + 1 := by omega
      simp only [hne, decide_false, decide_eq_false_iff_not] at this
      rcases hb k (by omega) (d + 1) (by omega) with h | h
      · exact h
      · exact absurd h this)
    exact ⟨by omega, by omega, h3⟩

theorem shrinkLoop_spec {N : Nat} {c c' : Nat} {g : Nat → Nat → Int} (hb : Bin N g) (n : Nat) (hn : n ≤ N) (ho : Outside n (matB N g)) :
    (shrinkLoop ⟨c, c', g⟩ n = none ∧ Outside 1 (matB N g)) ∨
    (∃ d, shrinkLoop ⟨c, c', g⟩ n = some d ∧ 2 ≤ d ∧ d ≤ n ∧ Outside d (matB N g) ∧ ∀ m, Outside m (matB N g) → d ≤ m) := by
  induction n with
  | zero => exact Or.inl ⟨rfl, ho.mono (by omega)⟩
  | succ n ih =>
    cases n with
    | zero => exact Or.inl ⟨rfl, ho⟩
    | succ d =>
      rw [shrinkLoop]
      simp only
      by_cases h : Outside (d + 1) (matB N g)
      · rw [if_pos ((shrink_cond hb hn ho).2 h)]
        rcases ih (by omega) h with h1 | ⟨d', h1, h2, h3, h4⟩
        · exact Or.inl h1
        · exact Or.inr ⟨d', h1, h2, by omega, h4⟩
      · rw [if_neg (fun hc => h ((shrink_cond hb hn ho).1 hc))]
        refine Or.inr ⟨d + 2, rfl, by omega, le_rfl, ho, ?_⟩
        intro m hm
        by_contra hlt
        exact h (hm.mono (by omega))

/-- The meaning of the attributes: degree `d` and the binary matrix `B`. -/
structure Rep (w : Walsh) (d : Nat) (B : Nat → Nat → Bool) : Prop where
  zero : d = 0 → w = neutralWalsh
  deg : w.degree = d
  neut : w.neutral = decide (d = 0)
  ne_one : d ≠ 1
  outside : Outside d B
  minimal : ∀ m, Outside m B → d ≤ m
  rows : w.matrixMinimal.rows = d
  cols : w.matrixMinimal.cols = d
  entry : ∀ i < d, ∀ j < d, w.matrixMinimal.get i j = if B i j then 1 else 0
  vec : w.vectorObject = vecD d fun k => act d B (2 ^ k)
  tvec : w.transposeVectorObject = vecD d fun k => act d (tr B) (2 ^ k)

theorem rep_neutral {B : Nat → Nat → Bool} (h : Outside 0 B) : Rep neutralWalsh 0 B where
  zero := fun _ => rfl
  deg := rfl
  neut := rfl
  ne_one := by omega
  outside := h
  minimal := fun _ _ => by omega
  rows := rfl
  cols := rfl
  entry := fun i hi => by omega
  vec := rfl
  tvec := rfl

/-! ## mapping -/

theorem wbit_act {d : Nat} {B : Nat → Nat → Bool} {m k : Nat} (hm : m < d) (hk : k < d) :
    wbit (act d (tr B) (2 ^ m) : Nat) k = B m k := by
  rw [wbit_nat, act_two_pow _ hm, testBit_valB_range]
  simp [hk, tr]

theorem Rep.longMatrix {w : Walsh} {d : Nat} {B : Nat → Nat → Bool} (h : Rep w d B) (hd : 0 < d) :
    ((List.range d).mapM fun m => makeLinearBinv
      { walsh := some (Vec.get w.transposeVectorObject m : Int), arity := some (d : Int), prefab := some ((List.range d).map (atomB d)) }) =
    .ok ((List.range d).map fun m => ⟨(List.range (2 ^ d)).map fun x => bsum d fun k => B m k && x.testBit k⟩) := by
  apply mapM_range_ok
  intro m hm
  rw [makeLinearBinv_eq _ d hd rfl (Or.inr rfl), linCoords_walsh]
  simp only [Option.getD_none, true_or, if_true]
  rw [h.tvec, get_vecD, if_pos hm]
  have hlt : ((act d (tr B) (2 ^ m) : Nat) : Int) < 2 ^ d := by
    exact_mod_cast act_lt (tr B) le_rfl (Nat.pow_lt_pow_right (by omega) hm)
  rw [if_pos hlt]
  unfold linB
  simp only [zero_ne_one, decide_false, Bool.xor_false, Except.ok.injEq, Binv.mk.injEq]
  apply List.map_congr_left
  intro x _
  apply bsum_congr
  intro k hk
  rw [wbit_act hm hk]

theorem mapM_getItem_col (d : Nat) (F : Nat → Nat → Bool) (n key : Nat) (hkey : key < n) :
    ((List.range d).map fun m => (⟨(List.range n).map (F m)⟩ : Binv)).mapM (·.getItem key) =
      .ok ((List.range d).map fun m => F m key) := by
  apply mapM_except_map
  intro m _
  unfold Binv.getItem
  rw [List.getElem?_map, List.getElem?_range hkey]
  rfl

open Classical in
theorem Rep.mapping_eq {w : Walsh} {d : Nat} {B : Nat → Nat → Bool} (h : Rep w d B) (hd : 0 < d) :
    w.mapping = if IsUnit (MB d B) then argMapping (.seq ((List.range (2 ^ d)).map (act d B))) else .error .invalidMatrix := by
  have hn : w.neutral = false := by rw [h.neut]; simp; omega
  unfold Walsh.mapping
  rw [hn]
  simp only [Bool.false_eq_true, if_false, h.deg]
  rw [makeAtompatterns_eq hd]
  simp only [bind, Except.bind]
  rw [h.longMatrix hd]
  simp only
  have hseq : ((List.range (2 ^ d)).mapM fun key => do
      let column ← ((List.range d).map fun m => (⟨(List.range (2 ^ d)).map fun x => bsum d fun k => B m k && x.testBit k⟩ : Binv)).mapM
        (·.getItem key)
      return (← ofBools column).intval) = (.ok ((List.range (2 ^ d)).map (act d B)) : Except Err (List Nat)) := by
    apply mapM_range_ok
    intro key hkey
    rw [mapM_getItem_col d (fun m x => bsum d fun k => B m k && x.testBit k) _ _ hkey]
    simp only [bind, Except.bind, pure, Except.pure, ofBools_eq, intval_eq]
    unfold act
    rw [Nat.div_eq_of_lt hkey]; simp
  simp only [bind, Except.bind] at hseq
  rw [hseq]
  simp only
  have hiff : IsUnit (MB d B) ↔ ((List.range (2 ^ d)).map (act d B)).Perm (List.range (2 ^ d)) := by
    rw [isUnit_iff_inj]
    constructor
    · intro hinj
      exact (perm_map_of_inj List.nodup_range (fun i hi j hj => hinj i (List.mem_range.1 hi) j (List.mem_range.1 hj))
        (fun i hi => List.mem_range.2 (act_lt B le_rfl (List.mem_range.1 hi)))).symm
    · intro hp x hx y hy hxy
      have := hp.nodup_iff.2 List.nodup_range
      exact List.inj_on_of_nodup_map this (List.mem_range.2 hx) (List.mem_range.2 hy) hxy
  by_cases hu : IsUnit (MB d B)
  · rw [if_pos hu, if_pos (sorted_eq_range.2 (hiff.1 hu))]
    unfold argMapping
    simp only
    rw [if_pos (by rw [sorted_eq_range]; simpa using hiff.1 hu)]
    congr 3
    funext kv
    simp [eq_comm]
  · rw [if_neg hu, if_neg (fun hs => hu (hiff.2 (sorted_eq_range.1 hs)))]

theorem per_act {d : Nat} (B : Nat → Nat → Bool) {f : Nat → Nat} (hf : ∀ i < 2 ^ d, f i = act d B i) : per f (2 ^ d) = act d B := by
  funext i
  unfold per
  rw [hf _ (Nat.mod_lt _ (Nat.two_pow_pos d))]
  apply Nat.eq_of_testBit_eq
  intro j
  rw [Nat.add_comm, Nat.testBit_two_pow_mul_add _ (act_lt B le_rfl (Nat.mod_lt _ (Nat.two_pow_pos d))), testBit_act, testBit_act]
  by_cases hj : j < d
  · simp only [if_pos hj]
    apply bsum_congr
    intro k hk
    rw [Nat.testBit_mod_two_pow]; simp [hk]
  · simp only [if_neg hj]
    rw [Nat.testBit_div_two_pow]; congr 1; omega

theorem testBit_one (i : Nat) : Nat.testBit 1 i = decide (i = 0) := by
  cases i with
  | zero => rfl
  | succ i => simp [Nat.testBit_succ]

theorem outside_of_shift {d : Nat} (hd : 0 < d) {B : Nat → Nat → Bool} (ho : Outside d B) (h : Shift (act d B) (2 ^ (d - 1))) :
    Outside (d - 1) B := by
  have h0 : act d B 0 = 0 := by
    apply Nat.eq_of_testBit_eq
    intro j
    rw [testBit_act]
    split
    · rw [bsum_false (fun _ _ => by simp)]; simp
    · rfl
  have hs : act d B (2 ^ (d - 1)) = 2 ^ (d - 1) := by
    have := h 0
    rwa [h0, Nat.zero_add] at this
  have hcol : ∀ i < d, B i (d - 1) = decide (i = d - 1) := by
    intro i hi
    have := congrArg (fun n => Nat.testBit n i) hs
    rw [act_two_pow _ (by omega), testBit_valB_range] at this
    simp only [hi, decide_true, Bool.true_and] at this
    rw [this, Nat.testBit_two_pow]
    simp [eq_comm]
  have hrow : ∀ k < d - 1, B (d - 1) k = false := by
    intro k hk
    have h1 := h (2 ^ k)
    have h2 : 2 ^ k + 2 ^ (d - 1) = 2 ^ k ^^^ 2 ^ (d - 1) := by
      apply Nat.eq_of_testBit_eq
      intro j
      have : 2 ^ k < 2 ^ (d - 1) := Nat.pow_lt_pow_right (by omega) hk
      rw [Nat.testBit_xor, Nat.add_comm]
      have e := Nat.testBit_two_pow_mul_add 1 this j
      rw [Nat.mul_one] at e
      rw [e, Nat.testBit_two_pow, Nat.testBit_two_pow]
      by_cases hj : j < d - 1
      · have : ¬ d - 1 = j := by omega
        simp [hj, this]
      · rw [if_neg hj, testBit_one]
        by_cases hj2 : d - 1 = j
        · subst hj2
          have : ¬ k = d - 1 := by omega
          simp [this]
        · have e1 : ¬ (j - (d - 1) = 0) := by omega
          have e2 : ¬ k = j := by omega
          simp [e1, e2, hj2]
    rw [h2, act_xor, hs] at h1
    have h3 : ∀ j, d - 1 < j → (act d B (2 ^ k)).testBit j = false := by
      intro j hj
      apply Nat.testBit_lt_two_pow
      have := act_lt B (le_refl d) (Nat.pow_lt_pow_right (by omega) (by omega) : 2 ^ k < 2 ^ d)
      exact lt_of_lt_of_le this (Nat.pow_le_pow_right (by omega) (by omega))
    by_contra hc
    have hbit : (act d B (2 ^ k)).testBit (d - 1) = true := by
      rw [act_two_pow _ (by omega), testBit_valB_range]
      have : d - 1 < d := by omega
      simpa [this] using hc
    have hge : 2 ^ (d - 1) ≤ act d B (2 ^ k) := Nat.ge_two_pow_of_testBit hbit
    have hlt : act d B (2 ^ k) ^^^ 2 ^ (d - 1) < 2 ^ (d - 1) := by
      apply Nat.lt_pow_two_of_testBit
      intro j hj
      rw [Nat.testBit_xor, Nat.testBit_two_pow]
      by_cases hj2 : d - 1 = j
      · subst hj2; simp [hbit]
      · rw [h3 j (by omega)]; simp [hj2]
    have : 2 ^ (d - 1) ≤ act d B (2 ^ k) ^^^ 2 ^ (d - 1) := by rw [h1]; omega
    omega
  intro i j hij
  by_cases hbig : d ≤ i ∨ d ≤ j
  · exact ho i j hbig
  · by_cases hj : j = d - 1
    · subst hj; exact hcol i (by omega)
    · have hi : i = d - 1 := by omega
      subst hi
      have : ¬ d - 1 = j := by omega
      rw [hrow j (by omega)]; simp [this]

/-- The methods inherited from `Perm` see a well-formed permutation, whose values are those of the matrix. -/
theorem Rep.asPerm {w : Walsh} {d : Nat} {B : Nat → Nat → Bool} (h : Rep w d B) (hu : IsUnit (MB d B)) :
    ∃ p, w.asPerm = .ok p ∧ WF p ∧ p.get = act d B ∧ p.perilen = (if d = 0 then none else some (2 ^ d)) ∧
      p.neutral = decide (d = 0) ∧ w.mapping = .ok p.mapping := by
  by_cases hd : d = 0
  · subst hd
    have hn : w.neutral = true := by rw [h.neut]; rfl
    have hm : w.mapping = .ok [] := by unfold Walsh.mapping; rw [hn]; rfl
    refine ⟨neutralPerm, ?_, wf_neutral, ?_, rfl, rfl, hm⟩
    · unfold Walsh.asPerm Walsh.perilen
      rw [hm, hn]; rfl
    · funext i
      unfold act Perm.get neutralPerm
      simp [valB]
  · have hn : w.neutral = false := by rw [h.neut]; simpa using hd
    have hp := h.mapping_eq (by omega)
    rw [if_pos hu] at hp
    have hperm : ((List.range (2 ^ d)).map (act d B)).Perm (List.range ((List.range (2 ^ d)).map (act d B)).length) := by
      rw [List.length_map, List.length_range]
      exact (perm_map_of_inj List.nodup_range (fun i _ j _ hij => act_inj hu hij)
        (fun i hi => List.mem_range.2 (act_lt B le_rfl (List.mem_range.1 hi)))).symm
    obtain ⟨m, h1, h2, h3⟩ := argMapping_seq hperm
    rw [h1] at hp
    have hf : ∀ i < 2 ^ d, dictFun m i = act d B i := by
      intro i hi
      rw [h3, List.getElem?_map, List.getElem?_range hi]; rfl
    have hkeys : ∀ k ∈ m.keys, k < 2 ^ d := by
      intro k hk
      by_contra hc
      apply h2.mem_keys_iff_ne.1 hk
      rw [h3, List.getElem?_eq_none (by simpa using hc)]; rfl
    have hm : m ≠ [] := by
      intro hm
      subst hm
      have : ∀ k < d, act d B (2 ^ k) = act d (fun i j => decide (i = j)) (2 ^ k) := by
        intro k hk
        rw [← hf _ (Nat.pow_lt_pow_right (by omega) hk), act_mono (d := 0) (n := d) (fun i j _ => rfl) (by omega)]
        unfold act
        simp [dictFun, valB]
      have hB := act_ext this
      have : Outside 0 B := by
        intro i j _
        by_cases hij : d ≤ i ∨ d ≤ j
        · exact h.outside i j hij
        · exact hB i (by omega) j (by omega)
      have := h.minimal 0 this
      omega
    have hd2 : 2 ≤ d := by have := h.ne_one; omega
    refine ⟨⟨false, m, some (2 ^ d), 2 ^ d⟩, ?_, ?_, ?_, ?_, ?_, hp⟩
    · unfold Walsh.asPerm Walsh.perilen
      rw [hp, hn, h.deg]; rfl
    · refine ⟨h2, by simpa using hm, by simp, by simp, ?_, ?_, ?_, ?_⟩
      · rintro l hl; cases hl; rfl
      · rintro l hl; cases hl
        calc 2 = 2 ^ 1 := rfl
          _ ≤ 2 ^ d := Nat.pow_le_pow_right (by omega) (by omega)
      · rintro l hl; cases hl; exact hkeys
      · rintro l hl; cases hl
        intro q hq hdvd hs
        have hq2 : q = 2 := by
          have := (Nat.prime_dvd_prime_iff_eq hq Nat.prime_two).1 (hq.dvd_of_dvd_pow hdvd)
          exact this
        subst hq2
        rw [per_act B hf] at hs
        have e : 2 ^ d / 2 = 2 ^ (d - 1) := by
          conv_lhs => rw [show d = d - 1 + 1 by omega, Nat.pow_succ]
          omega
        rw [e] at hs
        have := h.minimal _ (outside_of_shift (by omega) h.outside hs)
        omega
    · funext i
      have : Perm.get ⟨false, m, some (2 ^ d), 2 ^ d⟩ i = per (dictFun m) (2 ^ d) i := by
        unfold Perm.get
        simp only [Bool.false_eq_true, if_false, per, dictFun]
        have := Nat.div_add_mod i (2 ^ d)
        cases Dict.get? m (i % 2 ^ d) with
        | none => simp only [Option.getD_none]; omega
        | some v => simp only [Option.getD_some]; omega
      rw [this, per_act B hf]
    · rw [if_neg hd]
    · simp [hd]

open Classical in
theorem newMatrix_spec {N : Nat} {g : Nat → Nat → Int} (hb : Bin N g) (trust : Bool) :
    (Outside 1 (matB N g) ∧ newMatrix ⟨N, N, g⟩ trust = .ok neutralWalsh) ∨
    (∃ d w, 2 ≤ d ∧ d ≤ N ∧ Rep w d (matB N g) ∧
      newMatrix ⟨N, N, g⟩ trust = if trust = true ∨ IsUnit (MB d (matB N g)) then .ok w else .error .invalidMatrix) := by
  by_cases hN : N * N > 1
  · rcases shrinkLoop_spec (c := N) (c' := N) hb N le_rfl (outside_matB N g) with ⟨h1, h2⟩ | ⟨d, h1, h2, h3, h4, h5⟩
    · left
      refine ⟨h2, ?_⟩
      unfold newMatrix shrinkMatrix
      simp only
      rw [if_pos hN, if_pos trivial, h1]
    · right
      have hvec : vecD N (fun k => act N (matB N g) (2 ^ k)) = vecD d fun k => act d (matB N g) (2 ^ k) := by
        rw [vecD_mono h3]
        · unfold vecD tab
          congr 1
          apply List.map_congr_left
          intro k _
          simp only [act_mono h4 h3]
        · intro k hk
          rw [act_mono h4 h3, act_two_pow_ge _ hk]
      have htvec : vecD N (fun k => act N (tr (matB N g)) (2 ^ k)) = vecD d fun k => act d (tr (matB N g)) (2 ^ k) := by
        rw [vecD_mono h3]
        · unfold vecD tab
          congr 1
          apply List.map_congr_left
          intro k _
          simp only [act_mono h4.tr h3]
        · intro k hk
          rw [act_mono h4.tr h3, act_two_pow_ge _ hk]
      refine ⟨d, ⟨false, d, ⟨d, d, g⟩, vecD d fun k => act d (matB N g) (2 ^ k), vecD d fun k => act d (tr (matB N g)) (2 ^ k)⟩, h2, h3, ?_, ?_⟩
      · exact ⟨by omega, rfl, by simp; omega, by omega, h4, h5, rfl, rfl, fun i hi j hj => matB_entry hb (by omega) (by omega), rfl, rfl⟩
      · have hrep : Rep ⟨false, d, ⟨d, d, g⟩, vecD d fun k => act d (matB N g) (2 ^ k), vecD d fun k => act d (tr (matB N g)) (2 ^ k)⟩
            d (matB N g) :=
          ⟨by omega, rfl, by simp; omega, by omega, h4, h5, rfl, rfl, fun i hi j hj => matB_entry hb (by omega) (by omega), rfl, rfl⟩
        unfold newMatrix shrinkMatrix
        simp only
        rw [if_pos hN, if_pos trivial, h1]
        simp only
        rw [matrixToVector_spec hb, matrixToVector_spec hb]
        simp only [if_true, Bool.false_eq_true, if_false]
        rw [ofList_map, ofList_map, hvec, htvec]
        cases trust
        · simp only [Bool.false_eq_true, if_false, false_or]
          rw [hrep.mapping_eq (by omega)]
          by_cases hu : IsUnit (MB d (matB N g))
          · obtain ⟨p, _, _, _, _, _, hm⟩ := hrep.asPerm hu
            rw [hrep.mapping_eq (by omega)] at hm
            rw [hm, if_pos hu]
          · rw [if_neg hu, if_neg hu]
        · simp
  · left
    have hN1 : N ≤ 1 := by
      by_contra hc
      have : 2 * 2 ≤ N * N := Nat.mul_le_mul (by omega) (by omega)
      omega
    refine ⟨(outside_matB N g).mono hN1, ?_⟩
    unfold newMatrix shrinkMatrix
    simp only
    rw [if_neg hN]

end Verif.W
