import Verif.Walsh.Index
import Verif.Perm.Props2

/-! # The constructor of `WalshPerm` for permutations; products, inverses and transposes -/

namespace Verif.P
open Verif.Py

theorem constructed_of_wf {p : Perm} (h : WF p) : Constructed p := by
  refine ⟨.dict p.mapping, p.perilen, h.good.nodup, ?_⟩
  have hm : argMapping (.dict p.mapping) = .ok p.mapping := by
    unfold argMapping
    simp only
    rw [if_pos ((sorted_eq_sorted).2 h.good.perm), ofPairs_filter h.good.nodup, List.filter_eq_self.2]
    intro kv hkv
    simpa using h.good.nofix kv hkv
  unfold mkPerm
  rw [hm]
  simp only
  unfold finish
  cases hn : p.neutral with
  | true =>
    have h1 := h.neutral_iff.1 hn
    obtain ⟨h2, h3⟩ := h.neutral_perilen hn
    rw [if_pos h1]
    obtain ⟨n, m, pl, l⟩ := p
    simp only at hn h1 h2 h3
    subst hn h1 h2 h3
    rfl
  | false =>
    have h1 : p.mapping ≠ [] := fun e => by rw [h.neutral_iff.2 e] at hn; cases hn
    rw [if_neg h1]
    cases hp : p.perilen with
    | none =>
      simp only
      have := h.finite_length hn hp
      obtain ⟨n, m, pl, l⟩ := p
      simp only at hn hp this
      subst hn hp this
      rfl
    | some L =>
      simp only
      have h2 := h.per_ge L hp
      have hL := h.per_lt L hp
      rw [if_neg (by omega), if_neg (by rw [maxNat_lt_iff (keys_ne_nil h1)]; simpa using hL)]
      have hred : reducePeriod p.mapping L = .ok (p.mapping, L) := by
        unfold reducePeriod reduceAux
        rcases findPrime_spec h.good (by omega) hL (primefactors L) (fun q hq => (mem_primefactors (by omega)).1 hq) with
          ⟨e1, e2⟩ | ⟨q, e1, e2, e3⟩
        · rw [e1]
        · exfalso
          obtain ⟨hq, hd⟩ := (mem_primefactors (by omega)).1 e2
          apply h.irred L hp q hq hd
          obtain ⟨r, r1, r2, r3⟩ := blockRepeats_shift h.good (by omega) hL hq hd
          exact r3.1 e3
      rw [hred]
      have := h.per_length L hp
      obtain ⟨n, m, pl, l⟩ := p
      simp only at hn hp this
      subst hn hp this
      rfl

end Verif.P

namespace Verif.W
open Verif.Py Verif.BV Verif.P
open Verif.A hiding Mat
open Verif.SG (Mat)

theorem Valid.asPerm {w : Walsh} {d : Nat} {B : Nat → Nat → Bool} (h : Valid w d B) :
    ∃ p, w.asPerm = .ok p ∧ Constructed p ∧ p.get = act d B ∧ p.perilen = (if d = 0 then none else some (2 ^ d)) ∧
      p.neutral = decide (d = 0) ∧ w.mapping = .ok p.mapping := by
  obtain ⟨p, h1, h2, h3⟩ := h.1.asPerm h.2
  exact ⟨p, h1, constructed_of_wf h2, h3⟩

/-! ## permutations -/

/-- the list is linear on the numbers below `2 ** n` -/
def LinearList (n : Nat) (l : List Nat) : Prop := ∀ i < 2 ^ n, ∀ j < 2 ^ n, ∀ a b, l[i]? = some a → l[j]? = some b → l[i ^^^ j]? = some (a ^^^ b)

/-- row `m` of the long matrix -/
def rowF (l : List Nat) (m x : Nat) : Bool := (l.getD x 0).testBit m

/-- the Walsh index of a row: its values at the powers of two -/
def rowW (n : Nat) (l : List Nat) (m : Nat) : Nat := valB ((List.range n).map fun k => rowF l m (2 ^ k))

theorem linear_rows {n : Nat} {l : List Nat} (hl : l.length = 2 ^ n) :
    (∀ m < n, ∃ w < 2 ^ n, ∀ x < 2 ^ n, rowF l m x = linF n w x) → (∀ x ∈ l, x < 2 ^ n) → LinearList n l := by
  intro h hlt i hi j hj a b ha hb
  have hx : i ^^^ j < 2 ^ n := Nat.xor_lt_two_pow hi hj
  have hi' : i < l.length := by omega
  have hj' : j < l.length := by omega
  have hx' : i ^^^ j < l.length := by omega
  rw [List.getElem?_eq_getElem hi'] at ha
  rw [List.getElem?_eq_getElem hj'] at hb
  cases ha; cases hb
  rw [List.getElem?_eq_getElem hx']
  congr 1
  apply Nat.eq_of_testBit_eq
  intro m
  rw [Nat.testBit_xor]
  by_cases hm : m < n
  · obtain ⟨w, _, hw⟩ := h m hm
    have e : ∀ k (hk : k < l.length), l[k].testBit m = linF n w k := by
      intro k hk
      rw [← hw k (by omega)]
      unfold rowF
      rw [List.getD_eq_getElem?_getD, List.getElem?_eq_getElem hk]
      rfl
    rw [e, e, e]
    unfold linF
    rw [← bsum_xor]
    apply bsum_congr
    intro k _
    rw [Nat.testBit_xor]
    cases w.testBit k <;> simp
  · have e : ∀ k (hk : k < l.length), l[k].testBit m = false := fun k hk =>
      Nat.testBit_lt_two_pow (lt_of_lt_of_le (hlt _ (List.getElem_mem hk)) (Nat.pow_le_pow_right (by omega) (by omega)))
    rw [e, e, e]
    rfl

/-- the matrix of a linear list -/
def permB (n : Nat) (l : List Nat) (i j : Nat) : Bool := if i < n ∧ j < n then rowF l i (2 ^ j) else decide (i = j)

theorem outside_permB (n : Nat) (l : List Nat) : Outside n (permB n l) := by
  intro i j h
  unfold permB
  rw [if_neg (by omega)]

theorem bits_lt {n x : Nat} (hx : x < 2 ^ (n + 1)) (h : x.testBit n = false) : x < 2 ^ n := by
  apply Nat.lt_pow_two_of_testBit
  intro j hj
  by_cases hjn : j = n
  · subst hjn; exact h
  · exact Nat.testBit_lt_two_pow (lt_of_lt_of_le hx (Nat.pow_le_pow_right (by omega) (by omega)))

theorem linear_zero {n : Nat} {l : List Nat} (hl : l.length = 2 ^ n) (h : LinearList n l) : l[0]? = some 0 := by
  have hp := Nat.two_pow_pos n
  have h0 : l[0]? = some (l[0]'(by omega)) := List.getElem?_eq_getElem (by omega)
  have := h 0 hp 0 hp _ _ h0 h0
  simpa using this

theorem linear_rowF {n : Nat} {l : List Nat} (hl : l.length = 2 ^ n) (h : LinearList n l) (m : Nat) :
    ∀ k ≤ n, ∀ x < 2 ^ k, rowF l m x = bsum k fun j => rowF l m (2 ^ j) && x.testBit j := by
  have hr : ∀ i < 2 ^ n, ∀ j < 2 ^ n, rowF l m (i ^^^ j) = (rowF l m i ^^ rowF l m j) := by
    intro i hi j hj
    have h1 : l[i]? = some (l[i]'(by omega)) := List.getElem?_eq_getElem (by omega)
    have h2 : l[j]? = some (l[j]'(by omega)) := List.getElem?_eq_getElem (by omega)
    have := h i hi j hj _ _ h1 h2
    unfold rowF
    rw [List.getD_eq_getElem?_getD, List.getD_eq_getElem?_getD, List.getD_eq_getElem?_getD, this, h1, h2]
    simp
  intro k
  induction k with
  | zero =>
    intro _ x hx
    have : x = 0 := by simpa using hx
    subst this
    unfold rowF
    rw [List.getD_eq_getElem?_getD, linear_zero hl h]
    simp [bsum]
  | succ k ih =>
    intro hk x hx
    have hkn : 2 ^ k < 2 ^ n := Nat.pow_lt_pow_right (by omega) (by omega)
    rw [bsum]
    cases hb : x.testBit k
    · rw [ih (by omega) x (bits_lt hx hb)]; simp
    · have hx2 : x ^^^ 2 ^ k < 2 ^ k := by
        apply bits_lt
        · exact Nat.xor_lt_two_pow hx (Nat.pow_lt_pow_right (by omega) (by omega))
        · rw [Nat.testBit_xor, hb, Nat.testBit_two_pow]; simp
      have e : x = (x ^^^ 2 ^ k) ^^^ 2 ^ k := by rw [Nat.xor_assoc, Nat.xor_self, Nat.xor_zero]
      conv_lhs => rw [e]
      rw [hr _ (by omega) _ hkn, ih (by omega) _ hx2]
      congr 1
      · apply bsum_congr
        intro j hj
        rw [Nat.testBit_xor, Nat.testBit_two_pow_of_ne (by omega)]
        simp
      · simp

theorem act_permB {n : Nat} {l : List Nat} (hl : l.length = 2 ^ n) (hlt : ∀ x ∈ l, x < 2 ^ n) (h : LinearList n l) {x : Nat}
    (hx : x < l.length) : act n (permB n l) x = l[x] := by
  apply Nat.eq_of_testBit_eq
  intro m
  rw [testBit_act]
  by_cases hm : m < n
  · rw [if_pos hm]
    have := linear_rowF hl h m n le_rfl x (by omega)
    have e : rowF l m x = l[x].testBit m := by
      unfold rowF
      rw [List.getD_eq_getElem?_getD, List.getElem?_eq_getElem hx]; rfl
    rw [← e, this]
    apply bsum_congr
    intro k hk
    unfold permB
    rw [if_pos ⟨hm, hk⟩]
  · rw [if_neg hm, Nat.testBit_lt_two_pow (lt_of_lt_of_le (by omega : x < 2 ^ n) (Nat.pow_le_pow_right (by omega) (by omega))),
      Nat.testBit_lt_two_pow (lt_of_lt_of_le (hlt _ (List.getElem_mem hx)) (Nat.pow_le_pow_right (by omega) (by omega)))]

theorem isUnit_permB {n : Nat} {l : List Nat} (hl : l.length = 2 ^ n) (hp : l.Perm (List.range l.length)) (h : LinearList n l) :
    IsUnit (MB n (permB n l)) := by
  have hlt : ∀ x ∈ l, x < 2 ^ n := fun x hx => by rw [← hl]; exact List.mem_range.1 (hp.mem_iff.1 hx)
  rw [isUnit_iff_inj]
  intro x hx y hy hxy
  rw [act_permB hl hlt h (by omega), act_permB hl hlt h (by omega)] at hxy
  exact (List.Nodup.getElem_inj_iff (hp.nodup_iff.2 List.nodup_range)).1 hxy

theorem rowW_lt (n : Nat) (l : List Nat) (m : Nat) : rowW n l m < 2 ^ n := valB_range_lt _ _

theorem row_eq_linF {n : Nat} {l : List Nat} (hl : l.length = 2 ^ n) (h : LinearList n l) (m : Nat) {x : Nat} (hx : x < 2 ^ n) :
    rowF l m x = linF n (rowW n l m) x := by
  rw [linear_rowF hl h m n le_rfl x hx]
  unfold linF rowW
  apply bsum_congr
  intro k hk
  rw [testBit_valB_range]
  simp [hk]

/-- lines 28-30: the columns -/
theorem cols_eq {n : Nat} (hn : 0 < n) {l : List Nat} (hlt : ∀ x ∈ l, x < 2 ^ n) :
    (l.mapM fun x : Nat => mk { intval := some (x : Int), length := some (n : Int) }) =
      .ok (l.map fun x => (⟨(List.range n).map x.testBit⟩ : Binv)) := by
  have := mapM_except_map (fun x : Nat => mk { intval := some (x : Int), length := some (n : Int) }) id
    (fun x : Nat => (⟨(List.range n).map x.testBit⟩ : Binv)) l (fun x hx => mk_intval_bits hn (hlt x hx))
  simpa using this

theorem longMatrix_eq {n : Nat} {l : List Nat} (hl : l.length = 2 ^ n) :
    ((List.range n).map fun m => (l.map fun x => (⟨(List.range n).map x.testBit⟩ : Binv)).map fun c => c.vector.getD m false) =
      (List.range n).map fun m => (List.range (2 ^ n)).map (rowF l m) := by
  apply List.map_congr_left
  intro m hm
  have hm := List.mem_range.1 hm
  rw [List.map_map]
  apply List.ext_getElem?
  intro x
  rw [List.getElem?_map, List.getElem?_map]
  by_cases hx : x < 2 ^ n
  · rw [List.getElem?_range hx, List.getElem?_eq_getElem (by omega)]
    simp only [Option.map_some, Function.comp_apply, Option.some.injEq]
    unfold rowF
    rw [List.getD_eq_getElem?_getD, List.getD_eq_getElem?_getD, List.getElem?_map, List.getElem?_range hm,
      List.getElem?_eq_getElem (by omega)]
    rfl
  · rw [List.getElem?_eq_none (by omega), List.getElem?_eq_none (by simpa using hx)]
    rfl

theorem rowIndices_linear {n : Nat} (hn : 0 < n) {l : List Nat} (hl : l.length = 2 ^ n) (h : LinearList n l) (trust : Bool) :
    rowIndices ((List.range n).map fun m => (List.range (2 ^ n)).map (rowF l m)) trust = .ok ((List.range n).map (rowW n l)) := by
  unfold rowIndices
  rw [mapM_except_map _ _ (rowW n l)]
  intro m hm
  simp only [bind, Except.bind, ofBools_eq]
  have e : (List.range (2 ^ n)).map (rowF l m) = (List.range (2 ^ n)).map (linF n (rowW n l m)) := by
    apply List.map_congr_left
    intro x hx
    exact row_eq_linF hl h m (List.mem_range.1 hx)
  rw [e]
  cases trust
  · exact wfi_linear hn (rowW_lt _ _ _)
  · exact wfi_trust (rowW_lt _ _ _)

theorem mapM_error {α β ε : Type} (f : α → Except ε β) (e : ε) (l : List α) (h : ∀ a ∈ l, (∃ b, f a = .ok b) ∨ f a = .error e)
    (h2 : ∃ a ∈ l, f a = .error e) : l.mapM f = .error e := by
  induction l with
  | nil => obtain ⟨a, ha, _⟩ := h2; cases ha
  | cons x l ih =>
    rw [List.mapM_cons]
    rcases h x List.mem_cons_self with ⟨b, hb⟩ | hb
    · rw [hb]
      obtain ⟨a, ha, hfa⟩ := h2
      have : a ∈ l := by
        rcases List.mem_cons.1 ha with rfl | ha
        · rw [hb] at hfa; cases hfa
        · exact ha
      rw [show (Except.ok b >>= fun b => do let bs ← l.mapM f; pure (b :: bs)) = (do let bs ← l.mapM f; pure (b :: bs)) from rfl,
        ih (fun a ha => h a (List.mem_cons_of_mem _ ha)) ⟨a, this, hfa⟩]
      rfl
    · rw [hb]; rfl

theorem rowIndices_not_linear {n : Nat} (hn : 0 < n) {l : List Nat} (hl : l.length = 2 ^ n) (hlt : ∀ x ∈ l, x < 2 ^ n) (h : ¬ LinearList n l) :
    rowIndices ((List.range n).map fun m => (List.range (2 ^ n)).map (rowF l m)) false = .error .invalidPerm := by
  have hwf : ∀ m, (∃ w, walshFunctionToIndex ⟨(List.range (2 ^ n)).map (rowF l m)⟩ = .ok w) ∨
      walshFunctionToIndex ⟨(List.range (2 ^ n)).map (rowF l m)⟩ = .error .notWalshRow := by
    intro m
    rw [wfi_eq hn _ (by simp [Binv.length])]
    split
    · exact Or.inl ⟨_, rfl⟩
    · exact Or.inr rfl
  have hex : ∃ m < n, walshFunctionToIndex ⟨(List.range (2 ^ n)).map (rowF l m)⟩ = .error .notWalshRow := by
    by_contra hc
    push Not at hc
    apply h
    refine linear_rows hl (fun m hm => ?_) hlt
    rcases hwf m with ⟨w, hw⟩ | hw
    · rw [wfi_eq hn _ (by simp [Binv.length])] at hw
      rw [changes_map] at hw
      by_cases he : (⟨(List.range (2 ^ n)).map (rowF l m)⟩ : Binv) =
          ⟨(List.range (2 ^ n)).map (linF n (act n (colB (wpVec n)) (chg (rowF l m) (2 ^ n - 1))))⟩
      · refine ⟨_, act_lt (colB (wpVec n)) le_rfl (chg_lt (rowF l m) n), fun x hx => ?_⟩
        exact List.map_inj_left.1 (congrArg Binv.vector he) x (List.mem_range.2 hx)
      · rw [if_neg he] at hw; cases hw
    · exact absurd hw (hc m hm)
  unfold rowIndices
  rw [mapM_error _ Err.notWalshRow]
  · intro a ha
    obtain ⟨m, hm, rfl⟩ := List.mem_map.1 ha
    simp only [bind, Except.bind, ofBools_eq]
    exact hwf m
  · obtain ⟨m, hm, he⟩ := hex
    refine ⟨_, List.mem_map.2 ⟨m, List.mem_range.2 hm, rfl⟩, ?_⟩
    simp only [bind, Except.bind, ofBools_eq]
    exact he

theorem pow_ne {n : Nat} {l : List Nat} (hl : l.length = 2 ^ n) (hp : l.Perm (List.range l.length)) (h : ¬ (l = [0] ∨ l = [0, 1])) : 0 < n := by
  rcases Nat.eq_zero_or_pos n with rfl | hn
  · exfalso
    apply h
    left
    have h1 : l.length = 1 := hl
    rw [h1] at hp
    exact List.perm_singleton.1 hp
  · exact hn

/-- the permutation constructor, for a list of length `2 ** n` that is a permutation -/
theorem newPerm_seq {n : Nat} {l : List Nat} (hl : l.length = 2 ^ n) (hp : l.Perm (List.range l.length)) (arg : PermArg)
    (harg : permArgSeq arg = .ok l) (trust : Bool) :
    (LinearList n l → ∃ w d, newPerm arg trust = .ok w ∧ Valid w d (permB n l)) ∧
    (¬ LinearList n l → trust = false → newPerm arg trust = .error .invalidPerm) := by
  have hlt : ∀ x ∈ l, x < 2 ^ n := fun x hx => by rw [← hl]; exact List.mem_range.1 (hp.mem_iff.1 hx)
  have h0 : ¬ l.length = 0 := by have := Nat.two_pow_pos n; omega
  unfold newPerm permToMatrix
  rw [harg]
  simp only [bind, Except.bind]
  rw [if_neg h0, hl, isPowerOfTwo_pow, if_pos rfl, Nat.log2_two_pow]
  by_cases hneu : l = [0] ∨ l = [0, 1]
  · rw [if_pos hneu]
    have hlin : LinearList n l := by
      have key : ∀ i < 2 ^ n, l[i]? = some i := by
        intro i hi
        rcases hneu with rfl | rfl
        · have h1 : (1 : Nat) = 2 ^ n := hl
          have : i = 0 := by omega
          subst this; rfl
        · have h1 : (2 : Nat) = 2 ^ n := hl
          have : i = 0 ∨ i = 1 := by omega
          rcases this with rfl | rfl <;> rfl
      intro i hi j hj a b ha hb
      rw [key i hi] at ha
      rw [key j hj] at hb
      cases ha; cases hb
      exact key _ (Nat.xor_lt_two_pow hi hj)
    refine ⟨fun _ => ⟨neutralWalsh, 0, rfl, rep_neutral ?_, isUnit_of_subsingleton _⟩, fun h => absurd hlin h⟩
    intro i j _
    unfold permB
    split
    · rename_i hij
      rcases hneu with rfl | rfl
      · have h1 : 2 ^ 0 = 2 ^ n := hl
        have := Nat.pow_right_injective (le_refl 2) h1
        omega
      · have h1 : 2 ^ 1 = 2 ^ n := hl
        have := Nat.pow_right_injective (le_refl 2) h1
        have hi : i = 0 := by omega
        have hj : j = 0 := by omega
        subst hi hj
        rfl
    · rfl
  · rw [if_neg hneu]
    have hn := pow_ne hl hp hneu
    rw [cols_eq hn hlt]
    simp only
    rw [longMatrix_eq hl]
    constructor
    · intro hlin
      rw [rowIndices_linear hn hl hlin]
      simp only
      rw [cols_eq hn (l := (List.range n).map (rowW n l)) (by
        intro x hx
        obtain ⟨m, _, rfl⟩ := List.mem_map.1 hx
        exact rowW_lt _ _ _), List.map_map]
      simp only
      have hg : matrixOfRows n ((List.range n).map ((fun x : Nat => (⟨(List.range n).map x.testBit⟩ : Binv)) ∘ rowW n l)) =
          ⟨n, n, fun m k => if m < n ∧ k < n then ((permB n l m k).toNat : Int) else 0⟩ := by
        unfold matrixOfRows
        congr 1
        funext m k
        rw [List.getElem?_map]
        by_cases hm : m < n
        · rw [List.getElem?_range hm]
          simp only [Option.map_some, Function.comp_apply]
          rw [List.getD_eq_getElem?_getD, List.getElem?_map]
          by_cases hk : k < n
          · rw [List.getElem?_range hk, if_pos ⟨hm, hk⟩]
            unfold permB rowW
            rw [if_pos ⟨hm, hk⟩]
            simp [testBit_valB_range, hk]
          · rw [List.getElem?_eq_none (by simpa using hk), if_neg (by omega)]
            rfl
        · rw [List.getElem?_eq_none (by simpa using hm), if_neg (by omega)]
          rfl
      rw [hg]
      have := newMatrix_unit (bin_toNat n (permB n l)) trust (by rw [matB_toNat _ (outside_permB n l)]; exact isUnit_permB hl hp hlin)
      rwa [matB_toNat _ (outside_permB n l)] at this
    · intro hlin htr
      subst htr
      rw [rowIndices_not_linear hn hl hlt hlin]

end Verif.W
