import Verif.Perm.CyclePartition
import Verif.SetPart.Props2

/-! # C173: cycle partitions of products, powers and inverses; permutations from partitions -/

namespace Verif.P
open Verif.Py Verif.SP

theorem newPart_wf {L : Type} [DecidableEq L] {raw : List (List Int)} {d : Domain} {q : SetPart L} (h : newPart raw d = .ok q) : SP.WF q := by
  by_cases hn : NoOverlap raw
  · obtain ⟨q', h1, h2, _⟩ := (C37_construction (L := L) raw d).1 hn
    rw [h] at h1
    cases h1
    exact h2
  · rw [(C37_construction (L := L) raw d).2 hn] at h
    cases h

theorem cyclePartition_finite {p : Perm} (hp : Constructed p) (hf : p.perilen = none) :
    ∃ q, p.cyclePartition = .ok q ∧ SP.WF q ∧ q.domain = .N ∧
      ∀ x y : Int, Eqv q.blocks x y ↔ x = y ∨ ∃ a b k : Nat, x = a ∧ y = b ∧ p.get^[k] a = b := by
  obtain ⟨q, q1, q2, q3, q4⟩ := C17_cycle_partition p hp
  have hw : SP.WF q := by
    unfold Perm.cyclePartition at q1
    split at q1
    · exact newPart_wf q1
    · split at q1
      · cases q1
      · exact newPart_wf q1
  refine ⟨q, q1, hw, q2, fun x y => ?_⟩
  by_cases hxy : x = y
  · exact ⟨fun _ => Or.inl hxy, fun _ => Or.inl hxy⟩
  rw [← eqv_iff_pair hw hxy]
  constructor
  · intro h
    obtain ⟨hx, hy⟩ := q3 x y hxy h
    obtain ⟨a, rfl⟩ := Int.eq_ofNat_of_zero_le hx
    obtain ⟨b, rfl⟩ := Int.eq_ofNat_of_zero_le hy
    obtain ⟨_, k, hk⟩ := (q4 a b (by rintro rfl; exact hxy rfl)).1 h
    exact Or.inr ⟨a, b, k, rfl, rfl, hk⟩
  · rintro (h | ⟨a, b, k, rfl, rfl, hk⟩)
    · exact absurd h hxy
    · exact (q4 a b (by rintro rfl; exact hxy rfl)).2 ⟨fun l hl => (by rw [hf] at hl; cases hl), k, hk⟩

theorem le_of_eqv {L : Type} [DecidableEq L] {p q : SetPart L} (hp : SP.WF p) (hq : SP.WF q) (hpd : p.domain = .N) (hqd : q.domain = .N)
    (h : ∀ x y, Eqv p.blocks x y → Eqv q.blocks x y) : p.le q = .ok true := by
  obtain ⟨r, r1, r2⟩ := C41_le p q hp hq hpd hqd
  rw [r1, r2.2 fun a b hab hp' => (eqv_iff_pair hq hab).2 (h a b ((eqv_iff_pair hp hab).1 hp'))]

theorem eq_of_eqv {L : Type} [DecidableEq L] {p q : SetPart L} (hp : SP.WF p) (hq : SP.WF q) (hpd : p.domain = .N) (hqd : q.domain = .N)
    (h : ∀ x y, Eqv p.blocks x y ↔ Eqv q.blocks x y) : p.eq q = .ok true := by
  obtain ⟨r, r1, r2⟩ := (C37_equality p q hp hq).2 (by rw [hpd, hqd]; trivial)
  rw [r1, r2.2 fun a b hab => by rw [Bool.eq_iff_iff, eqv_iff_pair hp hab, eqv_iff_pair hq hab, h]]

/-- **C173.** The cycle partition of a product of finite permutations is not coarser than the join of their cycle partitions. -/
theorem C173_product (p q : Perm) (hp : Constructed p) (hq : Constructed q) (hpf : p.perilen = none) (hqf : q.perilen = none) :
    ∃ r P Q R J, p.mul q = .ok r ∧ p.cyclePartition = .ok P ∧ q.cyclePartition = .ok Q ∧ r.cyclePartition = .ok R ∧ P.join Q = .ok J ∧
      R.le J = .ok true := by
  obtain ⟨r, r1, r2, r3, r4, _⟩ := mul_spec hp hq (Or.inr (Or.inr (by rw [hpf, hqf])))
  obtain ⟨P, P1, P2, P3, P4⟩ := cyclePartition_finite hp hpf
  obtain ⟨Q, Q1, Q2, Q3, Q4⟩ := cyclePartition_finite hq hqf
  obtain ⟨R, R1, R2, R3, R4⟩ := cyclePartition_finite r2 (r4 hpf hqf)
  obtain ⟨J, J1, J2, J3, _, J5⟩ := join_ok P2 Q2
  refine ⟨r, P, Q, R, J, r1, P1, Q1, R1, J1, le_of_eqv R2 J2 R3 J3 fun x y hxy => ?_⟩
  have he := Eqv.equivalence J2.canon
  rcases (R4 x y).1 hxy with rfl | ⟨a, b, k, rfl, rfl, hk⟩
  · exact Or.inl rfl
  · subst hk
    induction k with
    | zero => exact Or.inl rfl
    | succ k ih =>
      refine he.trans (ih ((R4 _ _).2 (Or.inr ⟨a, _, k, rfl, rfl, rfl⟩))) ?_
      rw [Function.iterate_succ_apply', r3]
      exact he.trans ((J5 _ _).2 (chain_of_eqv_right ((Q4 _ _).2 (Or.inr ⟨_, _, 1, rfl, rfl, rfl⟩))))
        ((J5 _ _).2 (chain_of_eqv_left ((P4 _ _).2 (Or.inr ⟨_, _, 1, rfl, rfl, rfl⟩))))

example : (do
    let p ← mkPerm (.cycles [[0, 1], [2, 3]])
    let q ← mkPerm (.cycles [[1, 2], [4, 5]])
    let r ← p.mul q
    return ((← r.cyclePartition).blocks, (← (← p.cyclePartition).join (← q.cyclePartition)).blocks)) =
    .ok ([[0, 1, 2, 3], [4, 5]], [[0, 1, 2, 3], [4, 5]]) := by decide +kernel

/-- **C173.** For periodic permutations this fails, because `cycle_partition` covers only the first period: the product of permutations with the
periods 2 and 3 moves 4 and 5, which the factors join only in later periods. -/
theorem C173_product_periodic : (do
    let p ← mkPerm (.seq [1, 0]) (some 2)
    let q ← mkPerm (.seq [0, 2, 1]) (some 3)
    let r ← p.mul q
    (← r.cyclePartition).le (← (← p.cyclePartition).join (← q.cyclePartition))) = .ok false := by decide +kernel

/-- **C173.** The cycle partition of a power is not coarser than that of the permutation, and that of the inverse is the same. -/
theorem C173_power (p : Perm) (hp : Constructed p) (hf : p.perilen = none) (n : Int) :
    ∃ r i P R I, p.pow n = .ok r ∧ p.inverse = .ok i ∧ p.cyclePartition = .ok P ∧ r.cyclePartition = .ok R ∧ i.cyclePartition = .ok I ∧
      R.le P = .ok true ∧ I.eq P = .ok true := by
  obtain ⟨e, he⟩ := C08_bijection p hp
  obtain ⟨r, r1, r2, r3⟩ := C08_pow p hp e he n
  obtain ⟨i, i1, i2, i3, _, i5, i6⟩ := inverse_spec hp
  have hif : i.perilen = none := by rw [i3, hf]
  obtain ⟨P, P1, P2, P3, P4⟩ := cyclePartition_finite hp hf
  obtain ⟨R, R1, R2, R3, R4⟩ := cyclePartition_finite r2 ((pow_kind hp n r1).1 hf)
  obtain ⟨I, I1, I2, I3, I4⟩ := cyclePartition_finite i2 hif
  have hE := Eqv.equivalence P2.canon
  have hpos : ∀ (k : Nat) (a : Nat), Eqv P.blocks (a : Int) ((e ^ k) a : Nat) := fun k a =>
    (P4 _ _).2 (Or.inr ⟨a, _, k, rfl, rfl, by rw [← Equiv.Perm.iterate_eq_pow, show ⇑e = p.get from funext he]⟩)
  have hpow : ∀ (m : Int) (a : Nat), Eqv P.blocks (a : Int) ((e ^ m) a : Nat) := by
    intro m a
    rcases Int.eq_nat_or_neg m with ⟨k, rfl | rfl⟩
    · rw [zpow_natCast]
      exact hpos k a
    · have := hpos k ((e ^ (-(k : Int))) a)
      rw [zpow_neg, zpow_natCast, ← Equiv.Perm.mul_apply, mul_inv_cancel, Equiv.Perm.one_apply] at this
      rw [zpow_neg, zpow_natCast]
      exact hE.symm this
  refine ⟨r, i, P, R, I, r1, i1, P1, R1, I1, le_of_eqv R2 P2 R3 P3 fun x y hxy => ?_, eq_of_eqv I2 P2 I3 P3 fun x y => ?_⟩
  · rcases (R4 x y).1 hxy with rfl | ⟨a, b, k, rfl, rfl, hk⟩
    · exact Or.inl rfl
    · subst hk
      rw [show r.get = ⇑(e ^ n) from funext r3, Equiv.Perm.iterate_eq_pow, ← zpow_natCast, ← zpow_mul]
      exact hpow _ a
  · have hinv : ∀ k a b : Nat, i.get^[k] a = b ↔ p.get^[k] b = a := by
      intro k a b
      constructor
      · rintro rfl
        exact (Function.LeftInverse.iterate (f := i.get) (g := p.get) i6 k) a
      · rintro rfl
        exact (Function.LeftInverse.iterate (f := p.get) (g := i.get) i5 k) b
    have hsw : ∀ x y : Int, Eqv I.blocks x y ↔ Eqv P.blocks y x := by
      intro x y
      rw [I4, P4]
      constructor
      · rintro (rfl | ⟨a, b, k, rfl, rfl, hk⟩)
        · exact Or.inl rfl
        · exact Or.inr ⟨b, a, k, rfl, rfl, (hinv k a b).1 hk⟩
      · rintro (rfl | ⟨a, b, k, rfl, rfl, hk⟩)
        · exact Or.inl rfl
        · exact Or.inr ⟨b, a, k, rfl, rfl, (hinv k b a).2 hk⟩
    rw [hsw]
    exact ⟨hE.symm, hE.symm⟩

/-- **C173.** Every partition of natural numbers is a cycle partition: the permutation made from its blocks as cycles leads back to it. -/
theorem C173_from_partition (s : SetPart Unit) (hs : SP.WF s) (hd : s.domain = .N) (hn : ∀ B ∈ s.blocks, ∀ x ∈ B, 0 ≤ x) :
    ∃ p P, mkPerm (.cycles (s.blocks.map (·.map Int.toNat))) = .ok p ∧ Constructed p ∧ p.perilen = none ∧ p.cyclePartition = .ok P ∧ P.eq s = .ok true := by
  have hno : (s.blocks.map (·.map Int.toNat)).flatten.Nodup := by
    rw [← List.map_flatten]
    refine List.Nodup.map_on ?_ hs.canon.nodup
    intro x hx y hy e
    obtain ⟨B, hB, hx⟩ := List.mem_flatten.1 hx
    obtain ⟨C, hC, hy⟩ := List.mem_flatten.1 hy
    have := hn B hB x hx
    have := hn C hC y hy
    omega
  obtain ⟨m, m1, m2, m3, m4⟩ := argMapping_cycles hno
  obtain ⟨p, p1, p2, p3, p4⟩ := finish_none m2
  have hmk : mkPerm (.cycles (s.blocks.map (·.map Int.toNat))) = .ok p := by unfold mkPerm; rw [m1]; exact p1
  have hp : Constructed p := ⟨.cycles _, none, hno, hmk⟩
  obtain ⟨P, P1, P2, P3, P4⟩ := cyclePartition_finite hp p3
  refine ⟨p, P, hmk, hp, p3, P1, eq_of_eqv P2 hs P3 hd fun x y => ?_⟩
  have he := Eqv.equivalence hs.canon
  rw [P4]
  constructor
  · rintro (rfl | ⟨a, b, k, rfl, rfl, hk⟩)
    · exact Or.inl rfl
    · have step : ∀ a : Nat, Eqv s.blocks (a : Int) (p.get a : Nat) := by
        intro a
        by_cases h : ∃ B ∈ s.blocks, (a : Int) ∈ B
        · obtain ⟨B, hB, ha⟩ := h
          have hc : B.map Int.toNat ∈ s.blocks.map (·.map Int.toNat) := List.mem_map.2 ⟨B, hB, rfl⟩
          have hac : a ∈ B.map Int.toNat := List.mem_map.2 ⟨a, ha, rfl⟩
          obtain ⟨i, hi, hia⟩ := List.getElem_of_mem hac
          have hlt : (i + 1) % (B.map Int.toNat).length < (B.map Int.toNat).length := Nat.mod_lt _ (by omega)
          have hg : p.get a = (B.map Int.toNat)[(i + 1) % (B.map Int.toNat).length] := by
            rw [p4]; exact m3 _ hc _ _ ⟨i, hi, hia, rfl⟩
          obtain ⟨z, hz, e⟩ := List.mem_map.1 (List.getElem_mem hlt)
          refine Or.inr ⟨B, hB, ha, ?_⟩
          rw [hg, ← e, Int.toNat_of_nonneg (hn B hB z hz)]
          exact hz
        · have : p.get a = a := by
            rw [p4]
            apply m4
            intro hm
            obtain ⟨c, hc, ha⟩ := List.mem_flatten.1 hm
            obtain ⟨B, hB, rfl⟩ := List.mem_map.1 hc
            obtain ⟨z, hz, e⟩ := List.mem_map.1 ha
            exact h ⟨B, hB, by rw [← e, Int.toNat_of_nonneg (hn B hB z hz)]; exact hz⟩
          rw [this]
          exact Or.inl rfl
      subst hk
      clear hmk
      induction k with
      | zero => exact Or.inl rfl
      | succ k ih =>
        rw [Function.iterate_succ_apply']
        exact he.trans ih (step _)
  · rintro (rfl | ⟨B, hB, hx, hy⟩)
    · exact Or.inl rfl
    · right
      have hc : B.map Int.toNat ∈ s.blocks.map (·.map Int.toNat) := List.mem_map.2 ⟨B, hB, rfl⟩
      have hcyc : IsCycle p.get (B.map Int.toNat) := by
        refine ⟨by rw [List.length_map]; exact hs.canon.two B hB, (List.nodup_flatten.1 hno).1 _ hc, ?_⟩
        intro x y h
        rw [p4]
        exact m3 _ hc _ _ h
      obtain ⟨i, hi, ei⟩ := List.getElem_of_mem (List.mem_map.2 ⟨x, hx, rfl⟩ : x.toNat ∈ B.map Int.toNat)
      obtain ⟨j, hj, ej⟩ := List.getElem_of_mem (List.mem_map.2 ⟨y, hy, rfl⟩ : y.toNat ∈ B.map Int.toNat)
      refine ⟨x.toNat, y.toNat, j + (B.map Int.toNat).length - i, (Int.toNat_of_nonneg (hn B hB x hx)).symm, (Int.toNat_of_nonneg (hn B hB y hy)).symm, ?_⟩
      rw [← ei, hcyc.iterate hi, ← ej]
      congr 1
      rw [show i + (j + (B.map Int.toNat).length - i) = j + (B.map Int.toNat).length by omega, Nat.add_mod_right, Nat.mod_eq_of_lt hj]

example : (do
    let s : SetPart Unit ← newPart [[5, 1, 3], [2, 7]]
    let p ← mkPerm (.cycles (s.blocks.map fun B : List Int => B.map Int.toNat))
    return (p.get 5, p.get 1, (← p.cyclePartition).blocks)) = .ok (1, 3, [[1, 3, 5], [2, 7]]) := by decide +kernel

end Verif.P
