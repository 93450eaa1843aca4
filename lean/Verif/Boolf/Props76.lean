import Verif.Boolf.Model23
import Verif.Boolf.Props5
import Verif.Walsh.Props3

/-!
# C143: changed truth tables without the class
-/

namespace Verif.W
open Verif.Py Verif.BV Verif.P
open Verif.A hiding Mat

/-- the Walsh permutation that moves digit `k` to place `s[k]` -/
theorem wp_of_perm {n : Nat} {s : List Nat} (hs : s.Perm (List.range n)) :
    ∃ (w v : Walsh) (f : Nat → Nat), new { vector := some (s.map fun i => ((2 ^ i : Nat) : Int)) } = .ok w ∧ w.inverse = .ok v ∧
      (∀ (α : Type) (l : List α), (∀ i < l.length, f i < l.length) → ∃ r, v.applyOnVector l = .ok r ∧ r.length = l.length ∧ ∀ i, i < l.length → r[i]? = l[f i]?) ∧
      (∀ (α : Type) (l : List α), (∃ i < l.length, l.length ≤ f i) → v.applyOnVector l = .error .indexError) ∧
      ∀ i, (∀ k x : Nat, s[k]? = some x → (f i).testBit x = i.testBit k) ∧ ∀ k, n ≤ k → (f i).testBit k = i.testBit k := by
  have hl : s.length = n := by simpa using hs.length_eq
  have hnd : s.Nodup := hs.nodup_iff.2 List.nodup_range
  have hlt : ∀ x ∈ s, x < n := fun x hx => List.mem_range.1 (hs.mem_iff.1 hx)
  generalize hL : s.map (2 ^ ·) = L
  have hLl : L.length = n := by rw [← hL, List.length_map, hl]
  have hb : ∀ x ∈ L, x < 2 ^ L.length := by
    rw [hLl, ← hL]
    intro x hx
    obtain ⟨y, hy, rfl⟩ := List.mem_map.1 hx
    exact Nat.pow_lt_pow_right (by omega) (hlt y hy)
  have hbit : ∀ i k x : Nat, s[k]? = some x → (act n (colB L) i).testBit x = i.testBit k := by
    intro i k x hk
    have hkl : k < n := by rw [← hl]; exact (List.getElem?_eq_some_iff.1 hk).1
    have hx : x < n := hlt x (List.mem_of_getElem? hk)
    have hB : ∀ k' < n, colB L x k' = decide (k' = k) := by
      intro k' hk'
      unfold colB
      have hk'' : s[k']? = some s[k'] := List.getElem?_eq_getElem (by omega)
      rw [← hL, List.getElem?_map, hk'']
      simp only [Option.map_some]
      rw [Nat.testBit_two_pow]
      congr 1
      rw [eq_iff_iff]
      constructor
      · intro e
        rw [e, ← hk] at hk''
        exact (List.getElem?_inj (by omega) hnd).1 hk''
      · rintro rfl
        rw [hk] at hk''
        exact (Option.some.inj hk'').symm
    rw [testBit_act, if_pos hx, bsum_congr (g := fun k' => decide (k' = k) && i.testBit k') (fun k' hk' => by rw [hB k' hk']), bsum_single (k := k) hkl]
    · simp
    · intro j _ hj
      simp [hj]
  have hhigh : ∀ i k, n ≤ k → (act n (colB L) i).testBit k = i.testBit k := fun i k hk => by rw [testBit_act, if_neg (by omega)]
  have hu : IsUnit (MB L.length (colB L)) := by
    rw [isUnit_iff_inj, hLl]
    intro x _ y _ hxy
    apply Nat.eq_of_testBit_eq
    intro k
    by_cases hk : k < n
    · rw [← hbit x k s[k] (List.getElem?_eq_getElem (by omega)), hxy, hbit y k s[k] (List.getElem?_eq_getElem (by omega))]
    · rw [← hhigh x k (by omega), hxy, hhigh y k (by omega)]
  obtain ⟨w, d, w1, w2⟩ := newVector_unit hb false hu
  obtain ⟨v, e, C, v1, v2, v3, v4⟩ := inverse_spec w2
  obtain ⟨u, e', C', u1, u2, u3, u4⟩ := inverse_spec v2
  have hact : ∀ x, act e' C' x = act n (colB L) x := by
    intro x
    rw [← hLl, ← w2.act_eq (colB_ge hb)]
    rw [← u3 x, v3, u3]
  have heq : (fun i : Nat => ((2 ^ i : Nat) : Int)) = Int.ofNat ∘ (2 ^ ·) := by funext i; rfl
  refine ⟨w, v, act n (colB L), ?_, v1, fun α l h => ?_, fun α l h => ?_, fun i => ⟨fun k x => hbit i k x, fun k => hhigh i k⟩⟩
  · rw [heq, ← List.map_map, hL]
    exact w1
  · unfold Walsh.applyOnVector
    simp only [bind, Except.bind, u1, u2.get, hact]
    refine ⟨(List.range l.length).pmap (fun i hi => l[act n (colB L) i]'(h i hi)) (fun i hi => List.mem_range.1 hi), ?_, by simp, fun i hi => ?_⟩
    · have key : ∀ (m : List Nat) (hm : ∀ i ∈ m, i < l.length), m.mapM (fun i => match l[act n (colB L) i]? with | some x => (.ok x : Except Err α) | none => .error .indexError) =
          .ok (m.pmap (fun i hi => l[act n (colB L) i]'(h i hi)) hm) := by
        intro m
        induction m with
        | nil => intro _; rfl
        | cons i m ih =>
          intro hm
          rw [List.mapM_cons, ih (fun j hj => hm j (by simp [hj])), List.getElem?_eq_getElem (h i (hm i (by simp)))]
          rfl
      exact key _ _
    · rw [List.getElem?_pmap]
      simp [hi, h i hi]
  · unfold Walsh.applyOnVector
    simp only [bind, Except.bind, u1, u2.get, hact]
    apply P.mapM_error
    · intro i _
      cases l[act n (colB L) i]? with
      | none => exact Or.inr rfl
      | some x => exact Or.inl ⟨x, rfl⟩
    · obtain ⟨i, hi, hge⟩ := h
      exact ⟨i, List.mem_range.2 hi, by rw [List.getElem?_eq_none hge]⟩

end Verif.W

namespace Verif.BF
open Verif.Py Verif.BV Verif.P Verif.W
open Verif.A hiding Mat

/-! ## mod_tt_perm -/

/-- Number `j` has the digits of `i`, with digit `k` moved to place `s[k]`. -/
def Moved (s : List Nat) (i j : Nat) : Prop := (∀ k x : Nat, s[k]? = some x → j.testBit x = i.testBit k) ∧ ∀ k, s.length ≤ k → j.testBit k = i.testBit k

theorem moved_unique {n : Nat} {s : List Nat} (hs : s.Perm (List.range n)) {i j j' : Nat} (h : Moved s i j) (h' : Moved s i j') : j = j' := by
  have hl : s.length = n := by simpa using hs.length_eq
  apply Nat.eq_of_testBit_eq
  intro x
  by_cases hx : x < n
  · obtain ⟨k, hk⟩ := List.mem_iff_getElem?.1 (hs.mem_iff.2 (List.mem_range.2 hx))
    rw [h.1 k x hk, h'.1 k x hk]
  · rw [h.2 x (by omega), h'.2 x (by omega)]

theorem moved_div {n : Nat} {s : List Nat} (hs : s.Perm (List.range n)) {i j : Nat} (h : Moved s i j) : j / 2 ^ n = i / 2 ^ n := by
  have hl : s.length = n := by simpa using hs.length_eq
  apply Nat.eq_of_testBit_eq
  intro k
  rw [Nat.testBit_div_two_pow, Nat.testBit_div_two_pow, h.2 _ (by omega)]

theorem moved_lt {n m : Nat} {s : List Nat} (hs : s.Perm (List.range n)) {i j : Nat} (h : Moved s i j) (hm : 2 ^ n ∣ m) (hi : i < m) : j < m := by
  obtain ⟨c, rfl⟩ := hm
  have := moved_div hs h
  rw [Nat.mul_comm] at hi ⊢
  rw [← Nat.div_lt_iff_lt_mul (Nat.two_pow_pos n)] at hi ⊢
  omega

/-- **C143.** `mod_tt_perm` with a permutation of the places below `n`, and a table whose length is a multiple of `2 ** n`: entry `i` of the result is the entry of
the table at the place whose digits are those of `i`, with digit `k` moved to place `perm[k]`. -/
theorem C143_perm (tt : Binv) (n : Nat) (s : List Nat) (hs : s.Perm (List.range n)) (hl : 2 ^ n ∣ tt.length) :
    ∃ b, modTTPerm tt s = .ok b ∧ b.length = tt.length ∧ ∀ i j, i < tt.length → Moved s i j → b.getItem i = tt.getItem j := by
  have hn : s.length = n := by simpa using hs.length_eq
  obtain ⟨w, v, f, w1, w2, w3, _, w4⟩ := wp_of_perm hs
  have hm : ∀ i, Moved s i (f i) := fun i => ⟨(w4 i).1, fun k hk => (w4 i).2 k (by omega)⟩
  obtain ⟨r, r1, r2, r3⟩ := w3 Bool tt.vector fun i hi => moved_lt hs (hm i) hl hi
  refine ⟨⟨r⟩, ?_, r2, fun i j hi hj => ?_⟩
  · unfold modTTPerm
    simp only [bind, Except.bind, w1, w2, r1]
    rfl
  · rw [moved_unique hs hj (hm i)]
    unfold Binv.getItem
    rw [r3 i hi]

/-- **C143.** The result is an `IndexError`, if some place below the length is moved to one that is not. -/
theorem C143_perm_short (tt : Binv) (n : Nat) (s : List Nat) (hs : s.Perm (List.range n)) (i j : Nat) (hi : i < tt.length) (hij : Moved s i j) (hj : tt.length ≤ j) :
    modTTPerm tt s = .error .indexError := by
  have hn : s.length = n := by simpa using hs.length_eq
  obtain ⟨w, v, f, w1, w2, _, w3, w4⟩ := wp_of_perm hs
  have hm : ∀ i, Moved s i (f i) := fun i => ⟨(w4 i).1, fun k hk => (w4 i).2 k (by omega)⟩
  unfold modTTPerm
  simp only [bind, Except.bind, w1, w2]
  rw [w3 Bool tt.vector ⟨i, hi, by rw [← moved_unique hs hij (hm i)]; exact hj⟩]

/-- **C143.** Lists of natural numbers that are no permutations are rejected. -/
theorem C143_perm_errors (tt : Binv) (s : List Nat) :
    ((∃ x ∈ s, s.length ≤ x) → modTTPerm tt s = .error .lengthError) ∧ ((∀ x ∈ s, x < s.length) → ¬ s.Nodup → modTTPerm tt s = .error .invalidMatrix) := by
  have heq : (s.map fun i : Nat => ((2 ^ i : Nat) : Int)) = (s.map (2 ^ ·)).map Int.ofNat := by rw [List.map_map]; rfl
  constructor
  · rintro ⟨x, hx, hge⟩
    unfold modTTPerm
    dsimp only
    rw [(C34_bad_vector (s.map fun i : Nat => ((2 ^ i : Nat) : Int))).1 (fun y hy => by obtain ⟨z, _, rfl⟩ := List.mem_map.1 hy; exact Int.natCast_nonneg _)
      ⟨((2 ^ x : Nat) : Int), List.mem_map.2 ⟨x, hx, rfl⟩, by
        rw [List.length_map]
        have := Nat.pow_le_pow_right (n := 2) (by omega) hge
        exact_mod_cast this⟩]
    rfl
  · intro hb hnd
    obtain ⟨x, hx⟩ := List.exists_duplicate_iff_not_nodup.2 hnd
    rw [List.duplicate_iff_sublist] at hx
    have hpos : s.map (2 ^ ·) ≠ 0 :: (List.range' 1 ((s.map (2 ^ ·)).length - 1)).map (2 ^ ·) := by
      intro h
      have : 0 ∈ s.map (2 ^ ·) := by rw [h]; simp
      obtain ⟨y, _, hy⟩ := List.mem_map.1 this
      exact absurd hy (Nat.two_pow_pos y).ne'
    unfold modTTPerm
    dsimp only
    rw [heq, (C34_dependent (s.map (2 ^ ·)) (fun y hy => by
      obtain ⟨z, hz, rfl⟩ := List.mem_map.1 hy
      rw [List.length_map]
      exact Nat.pow_lt_pow_right (by omega) (hb z hz)) (fun h => h [2 ^ x, 2 ^ x] (by simpa using hx.map (2 ^ ·)) (by simp) (by simp))).2 hpos]
    rfl

theorem getD_table {b : Binv} {n : Nat} (a : Nat → Bool) (hb : b.length = 2 ^ n) : b.getItem (valB ((List.range n).map a)) = .ok (b.vector.getD (valB ((List.range n).map a)) false) := by
  have : valB ((List.range n).map a) < b.vector.length := by
    show _ < b.length
    rw [hb]
    exact valB_range_lt n a
  unfold Binv.getItem
  rw [List.getD_eq_getElem?_getD, List.getElem?_eq_getElem this]
  rfl

/-- **C143.** For a table of length `2 ** n` it is the action of the inverse permutation on the Boolean function: `s'[s[k]] == k`. -/
theorem C143_perm_boolf (tt : Binv) (n : Nat) (s s' : List Nat) (hs : s.Perm (List.range n)) (hs' : s'.Perm (List.range n)) (hinv : ∀ k x : Nat, s[k]? = some x → s'[x]? = some k)
    (N : Nat) (hN : n ≤ N) (hl : tt.length = 2 ^ N) :
    ∃ b f, modTTPerm tt s = .ok b ∧ newTT (.binv tt) = .ok f ∧ f.applySigperm (.list (s'.map Int.ofNat)) = newTT (.binv b) := by
  have hn : s.length = n := by simpa using hs.length_eq
  have hn' : s'.length = n := by simpa using hs'.length_eq
  obtain ⟨b, b1, b2, b3⟩ := C143_perm tt n s hs (by rw [hl]; exact Nat.pow_dvd_pow 2 hN)
  obtain ⟨f, f1, f2, f3⟩ := ttDeflated_none hl
  obtain ⟨g, g1, g2, g3⟩ := ttDeflated_none (b2.trans hl)
  have hlist : ((s'.map Int.ofNat).map (fun z => if z < 0 then (-z - 1).toNat else z.toNat)).Perm (List.range (s'.map Int.ofNat).length) := by
    rw [List.map_map, List.length_map, hn']
    have : ((fun z : Int => if z < 0 then (-z - 1).toNat else z.toNat) ∘ Int.ofNat) = id := by
      funext z
      simp only [Function.comp, Int.ofNat_eq_natCast]
      rw [if_neg (by omega)]
      simp
    rw [this, List.map_id]
    exact hs'
  obtain ⟨t, t1, t2, t3⟩ := (C70_list f (s'.map Int.ofNat)).1 hlist
  obtain ⟨t', t1', _, t4⟩ := (SG.C31_of_sequence (s'.map Int.ofNat)).1 hlist
  rw [t1] at t1'
  cases t1'
  obtain ⟨h, h1, _, h2, h3⟩ := action f2.reach.obj t2
  have fb : newTT (.binv tt) = .ok f := (newTT_binv _ _).trans f1
  have gb : newTT (.binv b) = .ok g := (newTT_binv _ _).trans g1
  refine ⟨b, f, b1, fb, ?_⟩
  rw [t3, h1, gb]
  congr 1
  apply (h2 f2).ext g2
  intro a
  rw [h3, f3, g3]
  have hi : valB ((List.range N).map a) < tt.length := by rw [hl]; exact valB_range_lt N a
  have hmv : Moved s (valB ((List.range N).map a)) (valB ((List.range N).map fun x => lit a (t.value x))) := by
    have hval : ∀ x, t.value x = (((s'[x]?).getD x : Nat) : Int) := fun x => by
      rw [t4, List.getElem?_map]
      cases s'[x]? <;> rfl
    have hlit : ∀ x, lit a (t.value x) = a ((s'[x]?).getD x) := fun x => by
      rw [hval]
      exact lit_nat a _
    refine ⟨fun k x hk => ?_, fun k hk => ?_⟩
    · have hkn : k < n := by rw [← hn]; exact (List.getElem?_eq_some_iff.1 hk).1
      have hx : x < n := List.mem_range.1 (hs.mem_iff.1 (List.mem_of_getElem? hk))
      rw [testBit_valB_range, testBit_valB_range, hlit, hinv k x hk]
      simp only [Option.getD_some]
      rw [decide_eq_true (by omega : x < N), decide_eq_true (by omega : k < N)]
    · rw [testBit_valB_range, testBit_valB_range, hlit, List.getElem?_eq_none (by omega)]
      rfl
  have := b3 _ _ hi hmv
  rw [getD_table _ (b2.trans hl), getD_table _ hl] at this
  exact (Except.ok.inj this).symm

/-- **C143.** The example in the documentation of `mod_tt_perm` (boolf/a/_mod_tt/mod_tt_perm/README.md) gives the result for the inverse permutation: it has
`1110 1110` in place of `1111 1100`. -/
theorem C143_readme : modTTPerm ⟨[true, true, true, true, true, false, true, false]⟩ [1, 2, 0] = .ok ⟨[true, true, true, true, true, true, false, false]⟩ ∧
    modTTPerm ⟨[true, true, true, true, true, false, true, false]⟩ [2, 0, 1] = .ok ⟨[true, true, true, false, true, true, true, false]⟩ := by
  have key : ∀ (s : List Nat) (i j : Nat), s.length = 3 → i < 8 → j < 8 → (∀ k < 3, j.testBit (s.getD k 0) = i.testBit k) → Moved s i j := by
    intro s i j hs hi hj h
    refine ⟨fun k x hk => ?_, fun k hk => ?_⟩
    · have hk3 : k < 3 := by rw [← hs]; exact (List.getElem?_eq_some_iff.1 hk).1
      have := h k hk3
      rw [List.getD_eq_getElem?_getD, hk] at this
      exact this
    · have hk : 3 ≤ k := by rw [← hs]; exact hk
      have : 8 ≤ 2 ^ k := Nat.pow_le_pow_right (n := 2) (by omega) hk
      rw [Nat.testBit_lt_two_pow (by omega), Nat.testBit_lt_two_pow (by omega)]
  have vec : ∀ (b : Binv) (v : List Bool), b.length = v.length → (∀ i < v.length, b.getItem i = (⟨v⟩ : Binv).getItem i) → b = ⟨v⟩ := by
    rintro ⟨w⟩ v hl h
    congr 1
    apply List.ext_getElem hl
    intro i h1 h2
    have := h i h2
    unfold Binv.getItem at this
    simp only at this
    rw [List.getElem?_eq_getElem h1, List.getElem?_eq_getElem h2] at this
    exact Except.ok.inj this
  constructor
  · obtain ⟨b, h1, hl, h2⟩ := C143_perm ⟨[true, true, true, true, true, false, true, false]⟩ 3 [1, 2, 0] (by decide) (by decide)
    rw [h1]
    congr 1
    refine vec b _ (by exact hl) ?_
    have : ∀ i < 8, ∃ j < 8, (∀ k < 3, j.testBit (([1, 2, 0] : List Nat).getD k 0) = i.testBit k) ∧
      (⟨[true, true, true, true, true, false, true, false]⟩ : Binv).getItem j = (⟨[true, true, true, true, true, true, false, false]⟩ : Binv).getItem i := by decide
    intro i hi
    obtain ⟨j, j1, j2, j3⟩ := this i hi
    rw [h2 i j hi (key _ i j rfl hi j1 j2), j3]
  · obtain ⟨b, h1, hl, h2⟩ := C143_perm ⟨[true, true, true, true, true, false, true, false]⟩ 3 [2, 0, 1] (by decide) (by decide)
    rw [h1]
    congr 1
    refine vec b _ (by exact hl) ?_
    have : ∀ i < 8, ∃ j < 8, (∀ k < 3, j.testBit (([2, 0, 1] : List Nat).getD k 0) = i.testBit k) ∧
      (⟨[true, true, true, true, true, false, true, false]⟩ : Binv).getItem j = (⟨[true, true, true, false, true, true, true, false]⟩ : Binv).getItem i := by decide
    intro i hi
    obtain ⟨j, j1, j2, j3⟩ := this i hi
    rw [h2 i j hi (key _ i j rfl hi j1 j2), j3]

/-! ## mod_tt_neg -/

theorem ttItem_xor {tt : Binv} {n : Nat} (hl : tt.length = 2 ^ n) {m : Int} (h1 : -2 ^ n ≤ m) (h2 : m < 2 ^ n) {i : Nat} (hi : i < 2 ^ n) :
    ttItem tt (pyXor i m) = tt.getItem (i ^^^ (m % 2 ^ n).toNat) := by
  unfold ttItem pyXor
  by_cases hm : 0 ≤ m
  · rw [if_pos hm, Int.emod_eq_of_lt hm h2]
    simp only
    rw [if_neg (by omega), if_neg (by omega), Int.toNat_natCast]
  · rw [if_neg hm]
    obtain ⟨k, hk⟩ : ∃ k : Nat, m = -(k : Int) - 1 := ⟨(-m - 1).toNat, by omega⟩
    subst hk
    have hkn : k < 2 ^ n := by
      have : ((2 ^ n : Nat) : Int) = 2 ^ n := by push_cast; rfl
      omega
    have hmod : ((-(k : Int) - 1) % 2 ^ n).toNat = 2 ^ n - (k + 1) := by
      have h : (-(k : Int) - 1) % 2 ^ n = ((2 ^ n - (k + 1) : Nat) : Int) := by
        rw [← Int.add_emod_right, Int.emod_eq_of_lt (by omega) (by omega), Nat.cast_sub (by omega)]
        push_cast
        ring
      rw [h, Int.toNat_natCast]
    have hx : i ^^^ k < 2 ^ n := Nat.xor_lt_two_pow hi hkn
    have hxor : 2 ^ n - ((i ^^^ k) + 1) = i ^^^ (2 ^ n - (k + 1)) := by
      apply Nat.eq_of_testBit_eq
      intro j
      rw [Nat.testBit_xor, Nat.testBit_two_pow_sub_succ hx, Nat.testBit_two_pow_sub_succ hkn, Nat.testBit_xor]
      by_cases hj : j < n
      · rw [decide_eq_true hj]
        cases i.testBit j <;> cases k.testBit j <;> rfl
      · rw [decide_eq_false hj, Nat.testBit_lt_two_pow (hi.trans_le (Nat.pow_le_pow_right (by omega) (by omega)))]
        rfl
    rw [hmod, ← hxor]
    have e : (-(-(k : Int) - 1) - 1).toNat = k := by omega
    rw [e, hl]
    simp only
    rw [if_pos (show -((i ^^^ k : Nat) : Int) - 1 < 0 by omega), if_neg (show ¬ -((i ^^^ k : Nat) : Int) - 1 + ((2 ^ n : Nat) : Int) < 0 by omega)]
    congr 1
    omega

/-- **C143.** `mod_tt_neg` for a table of length `2 ** n`: entry `i` of the result is entry `i ^ m` of the table, where `m` is the argument modulo `2 ** n`.
Arguments that are not between `-2 ** n` and `2 ** n - 1` raise `IndexError`. -/
theorem C143_neg (tt : Binv) (n : Nat) (hl : tt.length = 2 ^ n) (m : Int) :
    (-2 ^ n ≤ m → m < 2 ^ n → ∃ b, modTTNeg tt (.int m) = .ok b ∧ b.length = tt.length ∧ ∀ i < 2 ^ n, b.getItem i = tt.getItem (i ^^^ (m % 2 ^ n).toNat)) ∧
    (m < -2 ^ n ∨ 2 ^ n ≤ m → modTTNeg tt (.int m) = .error .indexError) := by
  have hc : ((2 ^ n : Nat) : Int) = 2 ^ n := by push_cast; rfl
  constructor
  · intro h1 h2
    have hlt : ∀ i < 2 ^ n, i ^^^ (m % 2 ^ n).toNat < 2 ^ n := fun i hi => Nat.xor_lt_two_pow hi (by
      have := Int.emod_lt_of_pos m (b := 2 ^ n) (by positivity)
      have := Int.emod_nonneg m (b := 2 ^ n) (by positivity)
      omega)
    refine ⟨⟨(List.range (2 ^ n)).map fun i => tt.vector.getD (i ^^^ (m % 2 ^ n).toNat) false⟩, ?_, by rw [hl]; simp [Binv.length], fun i hi => ?_⟩
    · unfold modTTNeg Signet.index
      simp only [bind, Except.bind, hl]
      rw [List.mapM_map, mapM_ok (g := fun i => tt.vector.getD (i ^^^ (m % 2 ^ n).toNat) false)]
      · rfl
      · intro i hi
        simp only [Function.comp_def]
        rw [ttItem_xor hl h1 h2 (List.mem_range.1 hi)]
        unfold Binv.getItem
        rw [List.getD_eq_getElem?_getD, List.getElem?_eq_getElem (by show _ < tt.length; rw [hl]; exact hlt i (List.mem_range.1 hi))]
        rfl
    · unfold Binv.getItem
      rw [List.getElem?_map, List.getElem?_range hi, Option.map_some, List.getD_eq_getElem?_getD, List.getElem?_eq_getElem (by show _ < tt.length; rw [hl]; exact hlt i hi)]
      rfl
  · intro h
    unfold modTTNeg Signet.index
    obtain ⟨c, hcn⟩ : ∃ c, 2 ^ n = c + 1 := ⟨2 ^ n - 1, by have := Nat.two_pow_pos n; omega⟩
    have h0 : ttItem tt (pyXor 0 m) = .error .indexError := by
      have hp : pyXor 0 m = m := by
        unfold pyXor
        simp only [Nat.zero_xor]
        split <;> omega
      rw [hp]
      unfold ttItem
      rw [hl]
      simp only
      rcases h with h | h
      · have := Nat.two_pow_pos n
        rw [if_pos (show m < 0 by omega), if_pos (by omega)]
      · have := Nat.two_pow_pos n
        rw [if_neg (show ¬ m < 0 by omega), if_neg (show ¬ m < 0 by omega)]
        unfold Binv.getItem
        rw [List.getElem?_eq_none (by show tt.length ≤ _; rw [hl]; omega)]
    simp only [bind, Except.bind, hl, hcn]
    rw [List.range_succ_eq_map, List.map_cons, List.mapM_cons]
    simp only [bind, Except.bind]
    rw [h0]

/-- **C143.** It is the negation of the atoms at the places of the digits 1 of the argument. -/
theorem C143_neg_boolf (tt : Binv) (n : Nat) (hl : tt.length = 2 ^ n) (m : Nat) (hm : m < 2 ^ n) :
    ∃ b f, modTTNeg tt (.int m) = .ok b ∧ newTT (.binv tt) = .ok f ∧
      f.applySigperm (.list ((List.range n).map fun x => if m.testBit x then -(x : Int) - 1 else x)) = newTT (.binv b) := by
  have hc : ((2 ^ n : Nat) : Int) = 2 ^ n := by push_cast; rfl
  obtain ⟨b, b1, b2, b3⟩ := (C143_neg tt n hl m).1 (by omega) (by omega)
  have hmm : ((m : Int) % 2 ^ n).toNat = m := by rw [Int.emod_eq_of_lt (by omega) (by omega), Int.toNat_natCast]
  rw [hmm] at b3
  obtain ⟨f, f1, f2, f3⟩ := ttDeflated_none hl
  obtain ⟨g, g1, g2, g3⟩ := ttDeflated_none (b2.trans hl)
  generalize hL : (List.range n).map (fun x => if m.testBit x then -(x : Int) - 1 else x) = L
  have hlist : (L.map (fun z => if z < 0 then (-z - 1).toNat else z.toNat)).Perm (List.range L.length) := by
    rw [← hL, List.map_map, List.length_map, List.length_range]
    have : ((fun z : Int => if z < 0 then (-z - 1).toNat else z.toNat) ∘ fun x : Nat => if m.testBit x then -(x : Int) - 1 else x) = id := by
      funext z
      simp only [Function.comp, id]
      cases m.testBit z
      · simp only [Bool.false_eq_true, if_false]; rw [if_neg (by omega)]; simp
      · simp only [if_true]; rw [if_pos (by omega)]; omega
    rw [this, List.map_id]
  obtain ⟨t, t1, t2, t3⟩ := (C70_list f L).1 hlist
  obtain ⟨t', t1', _, t4⟩ := (SG.C31_of_sequence L).1 hlist
  rw [t1] at t1'
  cases t1'
  obtain ⟨h, h1, _, h2, h3⟩ := action f2.reach.obj t2
  refine ⟨b, f, b1, (newTT_binv _ _).trans f1, ?_⟩
  rw [t3, h1, (newTT_binv _ _).trans g1]
  congr 1
  apply (h2 f2).ext g2
  intro a
  rw [h3, f3, g3]
  have hval : ∀ x < n, lit a (t.value x) = (a x ^^ m.testBit x) := fun x hx => by
    rw [t4, ← hL, List.getElem?_map, List.getElem?_range hx]
    unfold lit
    simp only [Option.map_some, Option.getD_some]
    rw [logicAbs_toNat]
    by_cases hmx : m.testBit x = true
    · simp only [hmx, if_true]
      rw [if_pos (by omega), decide_eq_true (by omega)]
      congr 2
      omega
    · rw [Bool.not_eq_true] at hmx
      simp only [hmx, Bool.false_eq_true, if_false]
      rw [if_neg (by omega), decide_eq_false (by omega)]; simp
  have e : valB ((List.range n).map fun x => lit a (t.value x)) = valB ((List.range n).map a) ^^^ m := by
    apply Nat.eq_of_testBit_eq
    intro x
    rw [Nat.testBit_xor, testBit_valB_range, testBit_valB_range]
    by_cases hx : x < n
    · rw [hval x hx, decide_eq_true hx]; simp
    · rw [decide_eq_false hx, Nat.testBit_lt_two_pow (hm.trans_le (Nat.pow_le_pow_right (by omega) (by omega)))]; rfl
  have := b3 _ (valB_range_lt n a)
  rw [← e, getD_table _ (b2.trans hl), getD_table _ hl] at this
  exact (Except.ok.inj this).symm

/-- **C143.** A list or a `Binv` as second argument raises `AttributeError`. -/
theorem C143_neg_types (tt : Binv) (l : List Bool) (b : Binv) : modTTNeg tt (.list l) = .error .attributeError ∧ modTTNeg tt (.binv b) = .error .attributeError := ⟨rfl, rfl⟩

/-- exclusive or of two atoms below a third one; negative arguments are read modulo 8. -/
example : modTTNeg ⟨[false, true, true, false, false, false, false, false]⟩ (.int 5) = .ok ⟨[false, false, false, false, true, false, false, true]⟩ ∧
    modTTNeg ⟨[false, true, true, false, false, false, false, false]⟩ (.int (-3)) = .ok ⟨[false, false, false, false, true, false, false, true]⟩ ∧
    modTTNeg ⟨[false, true, true, false, false, false, false, false]⟩ (.int 8) = .error .indexError := by decide +kernel

end Verif.BF
