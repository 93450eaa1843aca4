import Verif.SetPart.Props3

/-! # C190: the integer of a partition and the lattice -/

namespace Verif.SP
open Verif.Py

variable {L : Type}

theorem newPart_fresh {bs : List (List Int)} {d : Domain} {r : SetPart L} (h : newPart bs d = .ok r) : IntvalFresh r := by
  unfold newPart init at h
  simp only at h
  split at h
  · cases h
    exact ⟨.inl rfl, .inl rfl⟩
  · split at h
    · cases h
      exact ⟨.inl rfl, .inl rfl⟩
    · cases h

theorem tri_decomp (i : Nat) : ∃ a b, a < b ∧ i = (List.range b).sum + a := by
  induction i with
  | zero => exact ⟨0, 1, by omega, rfl⟩
  | succ i ih =>
    obtain ⟨a, b, h1, h2⟩ := ih
    by_cases h : a + 1 < b
    · exact ⟨a + 1, b, h, by omega⟩
    · refine ⟨0, b + 1, by omega, ?_⟩
      rw [List.range_succ, List.sum_append, List.sum_cons, List.sum_nil]
      omega

theorem nat_elements {p : SetPart L} (hd : p.domain = .N) (he : ElementsInDomain p) : ∀ B ∈ p.blocks, ∀ x ∈ B, 0 ≤ x := fun B hB x hx => by
  have := he B hB x hx
  rw [hd] at this
  exact this

/-- **C190.** The integer of the meet is the bitwise conjunction of the integers. -/
theorem C190_meet (p q : SetPart L) (hp : WF p) (hq : WF q) (hpd : p.domain = .N) (hqd : q.domain = .N) (hpe : ElementsInDomain p)
    (hqe : ElementsInDomain q) (hpf : IntvalFresh p) (hqf : IntvalFresh q) :
    ∃ r, p.meet q = .ok r ∧ r.intval.1 = p.intval.1 &&& q.intval.1 := by
  have hs : SameDomain p.domain q.domain := by rw [hpd, hqd]; trivial
  obtain ⟨r, r1, r2, r3, r4⟩ := (C39_meet p q hp hq).1 hs
  have hf : IntvalFresh r := by
    have := r1
    unfold SetPart.meet at this
    split at this
    · cases this
    · exact newPart_fresh this
  have hn : ∀ B ∈ r.blocks, ∀ x ∈ B, 0 ≤ x := fun B hB x hx => by
    obtain ⟨y, y1, y2⟩ := (C40_traversed r r2 x).1 (r2.mem_ns.2 ⟨B, hB, hx⟩)
    obtain ⟨C, hC, hxC⟩ := hp.mem_ns.1 ((C40_traversed p hp x).2 ⟨y, y1, ((r4 x y y1.symm).1 y2).1⟩)
    exact nat_elements hpd hpe C hC x hxC
  refine ⟨r, r1, Nat.eq_of_testBit_eq fun i => ?_⟩
  obtain ⟨a, b, hab, rfl⟩ := tri_decomp i
  rw [Nat.testBit_and, C43_intval_bits r r2 hn hf a b hab, C43_intval_bits p hp (nat_elements hpd hpe) hpf a b hab,
    C43_intval_bits q hq (nat_elements hqd hqe) hqf a b hab, Bool.eq_iff_iff, r4 a b (by omega), Bool.and_eq_true]

/-- **C190.** One partition refines another one, iff the binary digits of its integer are among those of the other one. -/
theorem C190_le (p q : SetPart L) (hp : WF p) (hq : WF q) (hpd : p.domain = .N) (hqd : q.domain = .N) (hpe : ElementsInDomain p)
    (hqe : ElementsInDomain q) (hpf : IntvalFresh p) (hqf : IntvalFresh q) :
    p.le q = .ok (decide (p.intval.1 &&& q.intval.1 = p.intval.1)) := by
  obtain ⟨r, r1, r2⟩ := C41_le p q hp hq hpd hqd
  rw [r1]
  congr 1
  rw [Bool.eq_iff_iff, r2, decide_eq_true_iff]
  have bits := fun (a b : Nat) (hab : a < b) => C43_intval_bits p hp (nat_elements hpd hpe) hpf a b hab
  have bits' := fun (a b : Nat) (hab : a < b) => C43_intval_bits q hq (nat_elements hqd hqe) hqf a b hab
  constructor
  · intro h
    refine Nat.eq_of_testBit_eq fun i => ?_
    obtain ⟨a, b, hab, rfl⟩ := tri_decomp i
    rw [Nat.testBit_and, bits a b hab, bits' a b hab]
    have := h a b (by omega)
    cases h1 : p.pairInSameBlock a b
    · rfl
    · rw [this h1]; rfl
  · intro h a b hab hp1
    have key : ∀ a b : Nat, a < b → p.pairInSameBlock a b = true → q.pairInSameBlock a b = true := by
      intro a b hab hp1
      have := congrArg (fun z => z.testBit ((List.range b).sum + a)) h
      simp only [Nat.testBit_and, bits a b hab, bits' a b hab, hp1, Bool.true_and] at this
      exact this
    obtain ⟨B, hB, ha, hb⟩ := (hp.pairInSameBlock a b).1 hp1
    obtain ⟨m, rfl⟩ := Int.eq_ofNat_of_zero_le (nat_elements hpd hpe B hB a ha)
    obtain ⟨n, rfl⟩ := Int.eq_ofNat_of_zero_le (nat_elements hpd hpe B hB b hb)
    rcases Nat.lt_or_gt_of_ne (show m ≠ n by omega) with hlt | hlt
    · exact key m n hlt hp1
    · have := key n m hlt ((hp.pairInSameBlock _ _).2 ⟨B, hB, hb, ha⟩)
      obtain ⟨C, hC, h1, h2⟩ := (hq.pairInSameBlock _ _).1 this
      exact (hq.pairInSameBlock _ _).2 ⟨C, hC, h2, h1⟩

/-- **C190.** The integer of the join contains the digits of both integers, and among the integers of partitions with this property
it is the one whose digits are contained in those of all others. -/
theorem C190_join (p q s : SetPart L) (hp : WF p) (hq : WF q) (hs : WF s) (hpd : p.domain = .N) (hqd : q.domain = .N) (hsd : s.domain = .N)
    (hpe : ElementsInDomain p) (hqe : ElementsInDomain q) (hse : ElementsInDomain s) (hpf : IntvalFresh p) (hqf : IntvalFresh q) (hsf : IntvalFresh s) :
    ∃ r, p.join q = .ok r ∧ (p.intval.1 ||| q.intval.1) &&& r.intval.1 = p.intval.1 ||| q.intval.1 ∧
      ((p.intval.1 ||| q.intval.1) &&& s.intval.1 = p.intval.1 ||| q.intval.1 → r.intval.1 &&& s.intval.1 = r.intval.1) := by
  obtain ⟨_, r, _, r1, _, b2⟩ := C41_bounds p q s hp hq hs hpd hqd hsd
  obtain ⟨_, r', _, r1', _, b3⟩ := C41_bounds p q r hp hq (by
    obtain ⟨r', e1, e2, _⟩ := join_ok hp hq
    rw [r1] at e1
    cases e1
    exact e2) hpd hqd (by
    obtain ⟨r', e1, _, e3, _⟩ := join_ok hp hq
    rw [r1] at e1
    cases e1
    exact e3)
  rw [r1] at r1'
  cases r1'
  obtain ⟨_, e1, hr, hrd, _, hch⟩ := join_ok hp hq
  rw [r1] at e1
  cases e1
  have hf : IntvalFresh r := by
    have := r1
    unfold SetPart.join SetPart.joinInOrder at this
    split at this
    · exact newPart_fresh this
    · cases this
  have hre : ElementsInDomain r := fun B hB x hx => by
    rw [hrd]
    obtain ⟨y, hy, y1⟩ := hr.canon.partner hB x
    have y2 : Joined r.blocks x y := ⟨B, hB, hx, hy⟩
    rcases chain_mem hp hq ((hch x y).1 (.inr y2)) with e | ⟨h | h, _⟩
    · exact absurd e.symm y1
    · obtain ⟨C, hC, hxC⟩ := hp.mem_ns.1 h
      exact nat_elements hpd hpe C hC x hxC
    · obtain ⟨C, hC, hxC⟩ := hq.mem_ns.1 h
      exact nat_elements hqd hqe C hC x hxC
  have hrr : r.le r = .ok true := (C41_partial_order r r r hr hr hr hrd hrd hrd).1
  obtain ⟨hpr, hqr⟩ := b3.1 hrr
  have both : ∀ u v w : Nat, u &&& w = u → v &&& w = v → (u ||| v) &&& w = u ||| v := fun u v w h1 h2 => by
    rw [Nat.and_or_distrib_right, h1, h2]
  have left : ∀ u v w : Nat, (u ||| v) &&& w = u ||| v → u &&& w = u ∧ v &&& w = v := fun u v w h => by
    constructor <;>
    · refine Nat.eq_of_testBit_eq fun i => ?_
      have := congrArg (fun z => z.testBit i) h
      simp only [Nat.testBit_and, Nat.testBit_or] at this ⊢
      revert this
      cases u.testBit i <;> cases v.testBit i <;> cases w.testBit i <;> decide
  rw [C190_le p r hp hr hpd hrd hpe hre hpf hf] at hpr
  rw [C190_le q r hq hr hqd hrd hqe hre hqf hf] at hqr
  refine ⟨r, r1, both _ _ _ (of_decide_eq_true (Except.ok.inj hpr)) (of_decide_eq_true (Except.ok.inj hqr)), fun h => ?_⟩
  obtain ⟨h1, h2⟩ := left _ _ _ h
  rw [C190_le r s hr hs hrd hsd hre hse hf hsf, C190_le p s hp hs hpd hsd hpe hse hpf hsf, C190_le q s hq hs hqd hsd hqe hse hqf hsf] at b2
  exact of_decide_eq_true (Except.ok.inj (b2.2 ⟨by rw [decide_eq_true h1], by rw [decide_eq_true h2]⟩))

theorem rangeSum_mono {m n : Nat} (h : m ≤ n) : (List.range m).sum ≤ (List.range n).sum := by
  induction h with
  | refl => exact Nat.le_refl _
  | step _ ih =>
    rw [List.range_succ, List.sum_append]
    omega

/-- **C190.** The size of the integer tells the largest joined number: it is below 2 to the power of 0 + ... + (n-1), iff all joined numbers are
below n. -/
theorem C190_bound (p : SetPart L) (hp : WF p) (hd : p.domain = .N) (he : ElementsInDomain p) (hf : IntvalFresh p) (n : Nat) :
    p.intval.1 < 2 ^ (List.range n).sum ↔ ∀ B ∈ p.blocks, ∀ x ∈ B, x < n := by
  have bits := fun (a b : Nat) (hab : a < b) => C43_intval_bits p hp (nat_elements hd he) hf a b hab
  constructor
  · intro h B hB x hx
    by_contra hc
    obtain ⟨y, hy, y1⟩ := hp.canon.partner hB x
    obtain ⟨u, rfl⟩ := Int.eq_ofNat_of_zero_le (nat_elements hd he B hB x hx)
    obtain ⟨v, rfl⟩ := Int.eq_ofNat_of_zero_le (nat_elements hd he B hB y hy)
    have key : ∀ a b : Nat, a < b → n ≤ b → (a : Int) ∈ B → (b : Int) ∈ B → False := fun a b hab hn ha hb => by
      have h1 := bits a b hab
      rw [(hp.pairInSameBlock a b).2 ⟨B, hB, ha, hb⟩] at h1
      have h2 := rangeSum_mono hn
      rw [Nat.testBit_lt_two_pow (Nat.lt_of_lt_of_le h (Nat.pow_le_pow_right (by omega) (by omega)))] at h1
      cases h1
    rcases Nat.lt_or_gt_of_ne (show u ≠ v by omega) with e | e
    · exact key u v e (by omega) hx hy
    · exact key v u e (by omega) hy hx
  · intro h
    refine Nat.lt_pow_two_of_testBit _ fun i hi => ?_
    obtain ⟨a, b, hab, rfl⟩ := tri_decomp i
    rw [bits a b hab]
    by_contra hc
    obtain ⟨B, hB, _, hb⟩ := (hp.pairInSameBlock a b).1 (Bool.eq_true_of_not_eq_false hc)
    have h1 := h B hB b hb
    have h2 := rangeSum_mono (m := b + 1) (n := n) (by omega)
    rw [List.range_succ, List.sum_append, List.sum_cons, List.sum_nil] at h2
    omega

/-- Two partitions, their meet and their join: digit 0 stands for the pair (0, 1), digit 1 for (0, 2), digit 2 for (1, 2), and so on. -/
example : (do
    let p ← newPart (L := Nat) [[0, 1, 2]]
    let q ← newPart [[1, 2, 3]]
    let m ← p.meet q
    let j ← p.join q
    return (p.intval.1, q.intval.1, m.intval.1, j.intval.1, ← m.le p, ← p.le q)) = .ok (7, 52, 4, 63, true, false) := by
  decide +kernel

/-- All joined numbers are below 4 = n, and 0 + 1 + 2 + 3 = 6. -/
example : (newPart (L := Nat) [[1, 2, 3]]).map (fun p => decide (p.intval.1 < 2 ^ (List.range 4).sum ∧ ¬ p.intval.1 < 2 ^ (List.range 3).sum)) =
    .ok true := by decide +kernel

end Verif.SP
