import Verif.Walsh.Linear

/-!
# Linear functions from prefabricated atom patterns (C29)

a/make_linear_binv/__init__.py:32-46.  The argument `prefab_atom_patterns` is checked only at its first entry.
-/

namespace Verif.W
open Verif.Py Verif.BV Verif.A

/-- entry `i` of pattern `k` -/
private def patAt (ps : List Binv) (k i : Nat) : Bool := ((ps[k]?).bind fun q => q.vector[i]?).getD false

private theorem linLoop_prefab (n : Nat) (w : Int) (ps : List Binv) (hl : n ≤ ps.length) (hq : ∀ q ∈ ps, q.length = 2 ^ n) (m : Nat) (hm : m ≤ n) :
    linLoop w ps (List.range' (n - m) m) ⟨(List.range (2 ^ n)).map fun i => bsum (n - m) (fun k => wbit w k && patAt ps k i)⟩ =
      .ok ⟨(List.range (2 ^ n)).map fun i => bsum n (fun k => wbit w k && patAt ps k i)⟩ := by
  induction m with
  | zero => simp [linLoop]
  | succ m ih =>
    rw [List.range'_succ, linLoop]
    have e : n - (m + 1) + 1 = n - m := by omega
    rw [e]
    have ih := ih (by omega)
    by_cases h : w / 2 ^ (n - (m + 1)) % 2 = 1
    · rw [if_pos h]
      have hlt : n - (m + 1) < ps.length := by omega
      have hlen : ps[n - (m + 1)].length = 2 ^ n := hq _ (List.getElem_mem hlt)
      rw [List.getElem?_eq_getElem hlt]
      simp only [Binv.xor]
      rw [bitwise_eq _ _ _ (by simp only [Binv.length] at hlen ⊢; simp [hlen])]
      simp only
      rw [← ih]
      congr 2
      apply List.ext_getElem?
      intro i
      simp only [List.getElem?_zipWith, List.getElem?_map]
      by_cases hi : i < 2 ^ n
      · have hi' : i < ps[n - (m + 1)].vector.length := by simp only [Binv.length] at hlen; omega
        rw [List.getElem?_range hi, List.getElem?_eq_getElem hi']
        simp only [Option.map_some, Option.some.injEq]
        conv_rhs => rw [← e, bsum]
        have h1 : wbit w (n - (m + 1)) = true := by unfold wbit; simp [h]
        have h2 : patAt ps (n - (m + 1)) i = ps[n - (m + 1)].vector[i] := by
          unfold patAt
          rw [List.getElem?_eq_getElem hlt]
          simp [List.getElem?_eq_getElem hi']
        rw [h1, h2, Bool.true_and]
      · rw [List.getElem?_eq_none (by simpa using hi)]; rfl
    · rw [if_neg h, ← ih]
      congr 2
      apply List.map_congr_left
      intro i _
      conv_rhs => rw [← e, bsum]
      have : wbit w (n - (m + 1)) = false := by unfold wbit; simp [h]
      rw [this]; simp

private theorem linLoop_short (w : Int) (ps : List Binv) (L : Nat) (hq : ∀ q ∈ ps, q.length = L) (ks : List Nat) (b : Binv) (hb : b.length = L)
    (h : ∃ k ∈ ks, wbit w k = true ∧ ps.length ≤ k) : linLoop w ps ks b = .error .indexError := by
  induction ks generalizing b with
  | nil => simp at h
  | cons k ks ih =>
    rw [linLoop]
    by_cases hk : w / 2 ^ k % 2 = 1
    · rw [if_pos hk]
      by_cases hlt : k < ps.length
      · have hlen : ps[k].length = L := hq _ (List.getElem_mem hlt)
        rw [List.getElem?_eq_getElem hlt]
        simp only [Binv.xor]
        rw [bitwise_eq _ _ _ (by rw [hb, hlen])]
        simp only
        apply ih
        · simp only [Binv.length] at hb hlen ⊢
          simp [hb, hlen]
        · obtain ⟨j, hj, hw, hp⟩ := h
          rcases List.mem_cons.1 hj with rfl | hj
          · omega
          · exact ⟨j, hj, hw, hp⟩
      · rw [List.getElem?_eq_none (by omega)]
    · rw [if_neg hk]
      apply ih _ hb
      obtain ⟨j, hj, hw, hp⟩ := h
      rcases List.mem_cons.1 hj with rfl | hj
      · unfold wbit at hw; simp [hk] at hw
      · exact ⟨j, hj, hw, hp⟩

/-- **C29.** Prefabricated patterns: an empty list raises an IndexError, and a first pattern of a length other than `2 ** n` an ArgValueError.  If all
patterns have this length and there are at least `n`, then entry `i` of the result is the parity plus the number of patterns `k` with digit `k` of `w` equal
to 1 and entry `i` equal to 1, modulo 2.  A digit 1 of `w` beyond the end of the list raises an IndexError. -/
theorem C29_prefab (n w : Nat) (hn : 0 < n) (hw : w < 2 ^ n) (p : Option Int) (hp : p = none ∨ p = some 0 ∨ p = some 1) :
    makeLinearBinv { walsh := some w, arity := some n, parity := p, prefab := some [] } = .error .indexError ∧
    (∀ q ps, q.length ≠ 2 ^ n → makeLinearBinv { walsh := some w, arity := some n, parity := p, prefab := some (q :: ps) } = .error .argValue) ∧
    (∀ ps, n ≤ ps.length → (∀ q ∈ ps, q.length = 2 ^ n) → ∃ b, makeLinearBinv { walsh := some w, arity := some n, parity := p, prefab := some ps } = .ok b ∧
      b.length = 2 ^ n ∧ ∀ i < 2 ^ n, b.vector[i]? =
        some (decide ((List.range n).countP (fun k => w.testBit k && decide (((ps[k]?).bind fun q => q.vector[i]?) = some true)) % 2 = 1) ^^ decide (p = some 1))) ∧
    (∀ ps, (∀ q ∈ ps, q.length = 2 ^ n) → (∃ k, w.testBit k = true ∧ ps.length ≤ k) →
      makeLinearBinv { walsh := some w, arity := some n, parity := p, prefab := some ps } = .error .indexError) := by
  have hw' : (w : Int) < 2 ^ n := by exact_mod_cast hw
  have hpp : p.getD 0 = 0 ∨ p.getD 0 = 1 := by rcases hp with rfl | rfl | rfl <;> simp
  have hpd : decide (p.getD 0 = 1) = decide (p = some 1) := by rcases hp with rfl | rfl | rfl <;> rfl
  have red : ∀ pf, makeLinearBinv { walsh := some w, arity := some n, parity := p, prefab := pf } = (do
      let atoms ← linAtoms n pf
      let binv ← linLoop w atoms (List.range n) ⟨List.replicate (2 ^ n) false⟩
      if decide (p = some 1) then binv.complement else .ok binv) := by
    intro pf
    unfold makeLinearBinv
    simp only [Int.toNat_natCast]
    rw [if_pos (by omega), linCoords_walsh, if_pos hpp, hpd]
    simp only [bind, Except.bind]
    rw [if_pos hw']
    simp only [ofBools_eq]
  refine ⟨by rw [red]; rfl, ?_, ?_, ?_⟩
  · intro q ps hq
    rw [red, linAtoms, if_neg hq]
    rfl
  · intro ps hl hq
    have hne : ps ≠ [] := by rintro rfl; simp at hl; omega
    obtain ⟨q, ps', rfl⟩ := List.exists_cons_of_ne_nil hne
    have key := linLoop_prefab n w (q :: ps') hl hq n (Nat.le_refl n)
    have e0 : (⟨List.replicate (2 ^ n) false⟩ : Binv) =
        ⟨(List.range (2 ^ n)).map fun i => bsum (n - n) (fun k => wbit w k && patAt (q :: ps') k i)⟩ := by
      congr 1
      rw [Nat.sub_self]
      simp only [bsum]
      rw [List.map_const', List.length_range]
    rw [← e0, Nat.sub_self, ← List.range_eq_range'] at key
    have hsum : ∀ i, bsum n (fun k => wbit w k && patAt (q :: ps') k i) =
        decide ((List.range n).countP (fun k => w.testBit k && decide ((((q :: ps')[k]?).bind fun q => q.vector[i]?) = some true)) % 2 = 1) := by
      intro i
      rw [← bsum_count]
      apply bsum_congr
      intro k _
      rw [wbit_nat]
      congr 1
      unfold patAt
      cases ((q :: ps')[k]?).bind fun q => q.vector[i]? with
      | none => rfl
      | some x => cases x <;> rfl
    rw [red, linAtoms, if_pos (hq q (by simp))]
    simp only [bind, Except.bind]
    rw [key]
    simp only
    by_cases h1 : p = some 1
    · rw [if_pos (by simpa using h1), complement_eq]
      refine ⟨_, rfl, by simp [Binv.length], ?_⟩
      intro i hi
      simp only [List.getElem?_map, List.getElem?_range hi, Option.map_some, hsum]
      simp [h1]
    · rw [if_neg (by simpa using h1)]
      refine ⟨_, rfl, by simp [Binv.length], ?_⟩
      intro i hi
      simp only [List.getElem?_map, List.getElem?_range hi, Option.map_some, hsum]
      simp [h1]
  · intro ps hq ⟨k, hk, hkp⟩
    cases ps with
    | nil => rw [red]; rfl
    | cons q ps =>
      rw [red, linAtoms, if_pos (hq q (by simp))]
      simp only [bind, Except.bind]
      have hkn : k < n := by
        by_contra hc
        have := Nat.testBit_lt_two_pow (Nat.lt_of_lt_of_le hw (Nat.pow_le_pow_right (by omega : 0 < 2) (Nat.le_of_not_lt hc)))
        rw [hk] at this
        cases this
      rw [linLoop_short w (q :: ps) (2 ^ n) hq _ _ (by simp [Binv.length]) ⟨k, List.mem_range.2 hkn, by rw [wbit_nat]; exact hk, hkp⟩]

/-- Any two patterns may take the place of the atoms; three entries instead of four, or eight, are refused. -/
example : makeLinearBinv { walsh := some 3, arity := some 2, parity := some 1, prefab := some [⟨[true, true, false, false]⟩, ⟨[true, false, false, false]⟩] } =
      .ok ⟨[true, false, true, true]⟩ ∧
    makeLinearBinv { walsh := some 3, arity := some 2, prefab := some [⟨[true, true, false]⟩] } = .error .argValue ∧
    makeLinearBinv { walsh := some 3, arity := some 2, prefab := some [⟨List.replicate 8 true⟩] } = .error .argValue ∧
    makeLinearBinv { walsh := some 3, arity := some 2, prefab := some [⟨[true, true, false, false]⟩] } = .error .indexError := by decide

end Verif.W
