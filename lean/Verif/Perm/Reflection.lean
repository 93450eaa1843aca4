import Verif.Perm.CyclePartition2
import Verif.Perm.CycleType
import Verif.Perm.Length
import Verif.SetPart.Rank

/-! # C179: the smallest number of transpositions with a given product -/

namespace Verif.P
open Verif.Py Verif.SP

/-- Specification: the sum of `len(c) - 1` over the cycles. -/
def cycleDefect (cs : List (List Nat)) : Nat := (cs.map fun c => c.length - 1).sum

theorem rank_cleanBlocks {raw : List (List Int)} (h : ∀ B ∈ raw, 2 ≤ B.length) :
    rank (cleanBlocks raw) = (raw.map fun B => B.length - 1).sum := by
  unfold cleanBlocks rank
  rw [List.filter_eq_self.2 (by intro B hB; have := h B hB; simp; omega), ((sortL_perm _).map _).sum_eq, List.map_map]
  congr 1
  refine List.map_congr_left fun B _ => ?_
  simp only [Function.comp, (sortZ_perm B).length_eq]

theorem defect_spec {p : Perm} (hp : Constructed p) (hf : p.perilen = none) :
    ∃ cs P, p.cycles = .ok cs ∧ p.cyclePartition = .ok P ∧ SP.WF P ∧ P.domain = .N ∧ P.blockLabels = [] ∧
      (∀ x y : Int, Eqv P.blocks x y ↔ x = y ∨ ∃ a b k : Nat, x = a ∧ y = b ∧ p.get^[k] a = b) ∧
      rank P.blocks = cycleDefect cs ∧ p.parity = cycleDefect cs % 2 := by
  obtain ⟨cs, c1, c2⟩ := C170_parity p hp hf
  obtain ⟨cs', d1, d2, d3, d4, _⟩ := C10_cycles p hp
  rw [c1] at d1
  cases d1
  obtain ⟨P, P1, P2, P3, P4⟩ := cyclePartition_finite hp hf
  have hraw : P.blocks = cleanBlocks (cs.map (·.map Int.ofNat)) ∧ P.blockLabels = [] := by
    have hno : ((cs.map (·.map Int.ofNat)).filter (fun B => decide (B.length > 1))).flatten.Nodup := by
      refine List.Nodup.sublist (List.Sublist.flatten List.filter_sublist) ?_
      rw [← List.map_flatten]
      exact d2.map fun a b e => Int.ofNat.inj e
    obtain ⟨Q, q1, _, q3, _, q5, _⟩ := init_ok (L := Unit) (d := .N) (l := []) (c := {}) hno
    by_cases hn : p.neutral = true
    · have hcs : cs = [] := by
        rw [List.eq_nil_iff_forall_not_mem]
        intro c hc
        have h2 := (d4 c hc).1
        cases c with
        | nil => simp at h2
        | cons x c =>
          have := ((d3 x).1 (List.mem_flatten.2 ⟨_, hc, List.mem_cons_self⟩)).1
          exact this ((C05_neutral_iff p hp).1 hn x)
      subst hcs
      unfold Perm.cyclePartition at P1
      rw [if_pos hn] at P1
      have : newPart (L := Unit) [] = .ok Q := q1
      rw [P1] at this
      cases this
      exact ⟨q3, by rw [q5]; simp⟩
    · unfold Perm.cyclePartition at P1
      rw [if_neg hn, c1] at P1
      have : newPart (L := Unit) (cs.map (·.map Int.ofNat)) = .ok Q := q1
      rw [show newPart (L := Unit) (cs.map (·.map Int.ofNat)) = .ok P from P1] at this
      cases this
      exact ⟨q3, by rw [q5]; simp⟩
  refine ⟨cs, P, c1, P1, P2, P3, hraw.2, P4, ?_, c2⟩
  rw [hraw.1, rank_cleanBlocks, cycleDefect, List.map_map]
  · simp [Function.comp_def]
  · intro B hB
    obtain ⟨c, hc, rfl⟩ := List.mem_map.1 hB
    rw [List.length_map]
    exact (d4 c hc).1

/-- **C179.** The sum of `len(c) - 1` over the cycles is the rank of the cycle partition; it is 0 only for neutral permutations. -/
theorem C179_rank (p : Perm) (hp : Constructed p) (hf : p.perilen = none) :
    ∃ cs P, p.cycles = .ok cs ∧ p.cyclePartition = .ok P ∧ rank P.blocks = cycleDefect cs ∧ (cycleDefect cs = 0 ↔ p.neutral = true) := by
  obtain ⟨cs, P, h1, h2, h3, h4, h5, h6, h7, h8⟩ := defect_spec hp hf
  obtain ⟨cs', d1, d2, d3, d4, _⟩ := C10_cycles p hp
  rw [h1] at d1
  cases d1
  refine ⟨cs, P, h1, h2, h7, ?_⟩
  rw [C05_neutral_iff p hp]
  constructor
  · intro h x
    by_contra hx
    obtain ⟨c, hc, _⟩ := List.mem_flatten.1 ((d3 x).2 ⟨hx, fun l hl => by rw [hf] at hl; cases hl⟩)
    have := (List.sum_eq_zero_iff.1 h) _ (List.mem_map.2 ⟨c, hc, rfl⟩)
    have := (d4 c hc).1
    omega
  · intro h
    have hcs : cs = [] := by
      rw [List.eq_nil_iff_forall_not_mem]
      intro c hc
      have h2 := (d4 c hc).1
      cases c with
      | nil => simp at h2
      | cons x c =>
        have := ((d3 x).1 (List.mem_flatten.2 ⟨_, hc, List.mem_cons_self⟩)).1
        exact this (h x)
    rw [hcs]
    rfl

/-- A relation that contains every step of a permutation contains its cycle partition. -/
theorem partition_le {p : Perm} {P : SetPart Unit} {J : List (List Int)} (hJ : Canon J)
    (hP : ∀ x y : Int, Eqv P.blocks x y ↔ x = y ∨ ∃ a b k : Nat, x = a ∧ y = b ∧ p.get^[k] a = b)
    (hs : ∀ n : Nat, Eqv J (n : Int) (p.get n : Nat)) (x y : Int) (h : Eqv P.blocks x y) : Eqv J x y := by
  have he := Eqv.equivalence hJ
  rcases (hP x y).1 h with rfl | ⟨a, b, k, rfl, rfl, hk⟩
  · exact Or.inl rfl
  · subst hk
    clear h
    induction k with
    | zero => exact Or.inl rfl
    | succ k ih =>
      rw [Function.iterate_succ_apply']
      exact he.trans ih (hs _)

/-- **C179.** For products of finite permutations the sum of `len(c) - 1` is subadditive. -/
theorem C179_product (p q : Perm) (hp : Constructed p) (hq : Constructed q) (hpf : p.perilen = none) (hqf : q.perilen = none) :
    ∃ r cs ds es, p.mul q = .ok r ∧ p.cycles = .ok cs ∧ q.cycles = .ok ds ∧ r.cycles = .ok es ∧
      cycleDefect es ≤ cycleDefect cs + cycleDefect ds := by
  obtain ⟨r, r1, r2, r3, r4, _⟩ := mul_spec hp hq (Or.inr (Or.inr (by rw [hpf, hqf])))
  obtain ⟨cs, P, p1, _, p3, p4, _, p6, p7, _⟩ := defect_spec hp hpf
  obtain ⟨ds, Q, q1, _, q3, q4, _, q6, q7, _⟩ := defect_spec hq hqf
  obtain ⟨es, R, s1, _, s3, _, _, s6, s7, _⟩ := defect_spec r2 (r4 hpf hqf)
  refine ⟨r, cs, ds, es, r1, p1, q1, s1, ?_⟩
  obtain ⟨J, M, j1, _, j3⟩ := C178_semimodular P Q p3 q3 (by rw [p4, q4]; trivial)
  obtain ⟨J', k1, k2, _, _, k5⟩ := join_ok p3 q3
  rw [j1] at k1
  cases k1
  have he := Eqv.equivalence k2.canon
  have := (rank_mono s3.canon k2.canon (partition_le k2.canon s6 fun n => by
    rw [r3]
    exact he.trans ((k5 _ _).2 (chain_of_eqv_right ((q6 _ _).2 (Or.inr ⟨_, _, 1, rfl, rfl, rfl⟩))))
      ((k5 _ _).2 (chain_of_eqv_left ((p6 _ _).2 (Or.inr ⟨_, _, 1, rfl, rfl, rfl⟩)))))).1
  omega

theorem mkPerm_transposition {a b : Nat} (hab : a ≠ b) : ∃ t, mkPerm (.cycles [[a, b]]) = .ok t ∧ Constructed t ∧ t.perilen = none ∧
    t.get a = b ∧ t.get b = a ∧ ∀ j, j ≠ a → j ≠ b → t.get j = j := by
  obtain ⟨t, t1, t2, t3⟩ := mkPerm_cycles [[a, b]]
  have hm : t.mapping = [(a, b), (b, a)] := by
    rw [t2]
    simp [moves, Dict.ofPairs, Dict.set, hab, Ne.symm hab]
  refine ⟨t, t1, ⟨_, none, by show [[a, b]].flatten.Nodup; simpa using hab, t1⟩, ?_, ?_, ?_, fun j h1 h2 => ?_⟩
  · unfold mkPerm at t1
    cases ha : argMapping (.cycles [[a, b]]) with
    | error e => rw [ha] at t1; cases t1
    | ok m =>
      rw [ha] at t1
      obtain ⟨p, p1, _, _, p4⟩ := finish_get m
      have : finish m none = .ok t := t1
      rw [p1] at this
      cases this
      exact p4
  · rw [t3, hm]; simp [dictFun, Dict.get?]
  · rw [t3, hm]; simp [dictFun, Dict.get?, hab]
  · rw [t3, hm]; simp [dictFun, Dict.get?, Ne.symm h1, Ne.symm h2]

theorem merge_up {P : SetPart Unit} (hP : SP.WF P) (hd : P.domain = .N) (hl : P.blockLabels = []) {a b : Nat} (hab : a ≠ b) :
    ∃ J, Canon J ∧ (∀ x y, Eqv P.blocks x y → Eqv J x y) ∧ Eqv J a b ∧
      (Eqv P.blocks a b → rank J = rank P.blocks) ∧ rank J ≤ rank P.blocks + 1 := by
  obtain ⟨Q, q1, q2, q3, q4, _⟩ := mergePair_plain hP hl a b
  have hg : SP.Good P.domain ((a : Int), (b : Int)) := by
    rw [hd]
    exact Or.inr ⟨by simp [InDomain], by simp [InDomain]⟩
  obtain ⟨e, hE⟩ := q4 hg
  have hR := Eqv.equivalence hP.canon
  have hm := C178_merge P hP hl a b
  rw [e] at hm
  have hne : (a : Int) ≠ b := by exact_mod_cast hab
  refine ⟨Q.blocks, q1.canon, fun x y h => ?_, ?_, fun h => ?_, ?_⟩
  · rw [hE, ← mergeRel_closure hR]
    exact Or.inl h
  · rw [hE, ← mergeRel_closure hR]
    exact Or.inr (Or.inl ⟨hR.refl _, hR.refl _⟩)
  · rw [if_neg] at hm
    · exact hm
    · rintro ⟨_, _, hf⟩
      rw [(eqv_iff_pair hP hne).2 h] at hf
      cases hf
  · split at hm <;> (simp only at hm; omega)

theorem exchange_twice {a b : Nat} {t : Nat → Nat} (h1 : t a = b) (h2 : t b = a) (h3 : ∀ j, j ≠ a → j ≠ b → t j = j) (j : Nat) :
    t (t j) = j := by
  by_cases e1 : j = a
  · subst e1; rw [h1, h2]
  · by_cases e2 : j = b
    · subst e2; rw [h2, h1]
    · rw [h3 j e1 e2, h3 j e1 e2]

/-- **C179.** The product with a transposition has one more in this sum if its two places are in different cycles, and one less if they
are in the same one. -/
theorem C179_transposition (p : Perm) (hp : Constructed p) (hf : p.perilen = none) (a b : Nat) (hab : a ≠ b) :
    ∃ t r cs ds, mkPerm (.cycles [[a, b]]) = .ok t ∧ p.mul t = .ok r ∧ p.cycles = .ok cs ∧ r.cycles = .ok ds ∧
      ((∃ k, p.get^[k] a = b) → cycleDefect ds + 1 = cycleDefect cs) ∧
      ((∀ k, p.get^[k] a ≠ b) → cycleDefect ds = cycleDefect cs + 1) := by
  obtain ⟨t, t1, t2, t3, t4, t5, t6⟩ := mkPerm_transposition hab
  obtain ⟨r, r1, r2, r3, r4, _⟩ := mul_spec hp t2 (Or.inr (Or.inr (by rw [hf, t3])))
  obtain ⟨cs, P, p1, _, p3, p4, p5, p6, p7, p8⟩ := defect_spec hp hf
  obtain ⟨ds, R, s1, _, s3, s4, s5, s6, s7, s8⟩ := defect_spec r2 (r4 hf t3)
  obtain ⟨ts, T, _, _, u3, u4, u5, u6, u7, u8⟩ := defect_spec t2 t3
  obtain ⟨os, O, o1, _, o3, o4, o5, o6, o7, o8⟩ := defect_spec constructed_neutral rfl
  refine ⟨t, r, cs, ds, t1, r1, p1, s1, ?_⟩
  have hback : ∀ j, p.get j = r.get (t.get j) := by
    intro j
    rw [r3]
    simp only [Function.comp]
    rw [exchange_twice t4 t5 t6]
  obtain ⟨J, j1, j2, j3, j4, j5⟩ := merge_up p3 p4 p5 hab
  obtain ⟨K, k1, k2, k3, _, k5⟩ := merge_up s3 s4 s5 hab
  obtain ⟨N, n1, n2, n3, _, n5⟩ := merge_up o3 o4 o5 hab
  have hjE := Eqv.equivalence j1
  have hkE := Eqv.equivalence k1
  have swap : ∀ {X : List (List Int)}, Canon X → Eqv X a b → ∀ n : Nat, Eqv X (n : Int) (t.get n : Nat) := by
    intro X hX h n
    by_cases e1 : n = a
    · subst e1; rw [t4]; exact h
    · by_cases e2 : n = b
      · subst e2; rw [t5]; exact (Eqv.equivalence hX).symm h
      · rw [t6 n e1 e2]; exact Or.inl rfl
  have hRJ := partition_le j1 s6 fun n => by
    rw [r3]
    exact hjE.trans (swap j1 j3 n) (j2 _ _ ((p6 _ _).2 (Or.inr ⟨_, _, 1, rfl, rfl, rfl⟩)))
  have hPK := partition_le k1 p6 fun n => by
    rw [hback]
    exact hkE.trans (swap k1 k3 n) (k2 _ _ ((s6 _ _).2 (Or.inr ⟨_, _, 1, rfl, rfl, rfl⟩)))
  have hTN := partition_le n1 u6 fun n => swap n1 n3 n
  have e1 := (rank_mono s3.canon j1 hRJ).1
  obtain ⟨e2, e3⟩ := rank_mono p3.canon k1 hPK
  have e4 := (rank_mono u3.canon n1 hTN).1
  have hO : rank O.blocks = 0 := by
    obtain ⟨_, _, v1, _, _, v4⟩ := C179_rank neutralPerm constructed_neutral rfl
    rw [o1] at v1
    cases v1
    rw [o7]
    exact v4.2 rfl
  have hOT : ∀ x y, Eqv O.blocks x y → x = y := by
    intro x y h
    rcases (o6 x y).1 h with h | ⟨c, d, k, rfl, rfl, h'⟩
    · exact h
    · rw [show neutralPerm.get = id from rfl, Function.iterate_id] at h'
      exact congrArg _ h'
  have e5 := rank_mono o3.canon u3.canon fun x y h => Or.inl (hOT x y h)
  have hT : rank T.blocks = 1 := by
    have : rank O.blocks ≠ rank T.blocks := by
      intro h
      have := hOT _ _ (e5.2.1 h a b ((u6 _ _).2 (Or.inr ⟨a, b, 1, rfl, rfl, t4⟩)))
      exact hab (by exact_mod_cast this)
    have := e5.1
    omega
  obtain ⟨r', m1, m2⟩ := C16_parity_mul p t hp t2 hf t3
  rw [r1] at m1
  cases m1
  have hpar : (rank R.blocks) % 2 = (rank P.blocks + 1) % 2 := by
    rw [s7, ← s8, m2, p8, u8, ← u7, hT, p7]
    omega
  constructor
  · rintro ⟨k, hk⟩
    have := j4 ((p6 _ _).2 (Or.inr ⟨a, b, k, rfl, rfl, hk⟩))
    omega
  · intro hk
    by_contra hc
    have hle : rank P.blocks = rank K := by omega
    rcases (p6 _ _).1 (e3.1 hle a b k3) with h | ⟨a', b', k, h1, h2, h3⟩
    · exact hab (by exact_mod_cast h)
    · have h1 : a = a' := by exact_mod_cast h1
      have h2 : b = b' := by exact_mod_cast h2
      subst h1 h2
      exact hk k h3

/-- Specification: p is the product of the transpositions of the given pairs. -/
inductive TranspositionProduct : List (Nat × Nat) → Perm → Prop
  | nil : TranspositionProduct [] neutralPerm
  | snoc {l : List (Nat × Nat)} {p t r : Perm} {a b : Nat} : TranspositionProduct l p → a ≠ b → mkPerm (.cycles [[a, b]]) = .ok t →
      p.mul t = .ok r → TranspositionProduct (l ++ [(a, b)]) r

theorem TranspositionProduct.spec {l : List (Nat × Nat)} {p : Perm} (h : TranspositionProduct l p) :
    Constructed p ∧ p.perilen = none ∧ ∃ cs, p.cycles = .ok cs ∧ cycleDefect cs ≤ l.length ∧ cycleDefect cs % 2 = l.length % 2 := by
  induction h with
  | nil =>
    obtain ⟨cs, _, v1, _, _, v4⟩ := C179_rank neutralPerm constructed_neutral rfl
    have := v4.2 rfl
    exact ⟨constructed_neutral, rfl, cs, v1, by omega, by rw [this]; rfl⟩
  | @snoc l p t r a b _ hab ht hr ih =>
    obtain ⟨i1, i2, cs, i3, i4, i5⟩ := ih
    obtain ⟨t', t1, t2, t3, _⟩ := mkPerm_transposition hab
    rw [ht] at t1
    cases t1
    obtain ⟨r', r1, r2, _, r4, _⟩ := mul_spec i1 t2 (Or.inr (Or.inr (by rw [i2, t3])))
    obtain ⟨t'', r'', cs', ds, u1, u2, u3, u4, u5, u6⟩ := C179_transposition p i1 i2 a b hab
    rw [ht] at u1
    cases u1
    rw [hr] at r1 u2
    cases r1
    cases u2
    rw [i3] at u3
    cases u3
    refine ⟨r2, r4 i2 t3, ds, u4, ?_⟩
    rw [List.length_append, List.length_singleton]
    by_cases h : ∃ k, p.get^[k] a = b
    · have := u5 h
      omega
    · push Not at h
      have := u6 h
      omega

/-- **C179.** The sum of `len(c) - 1` over the cycles of a finite permutation is the smallest number of transpositions of which it is the
product, and all such numbers differ from it by an even number. -/
theorem C179_length (p : Perm) (hp : Constructed p) (hf : p.perilen = none) :
    ∃ cs, p.cycles = .ok cs ∧
      (∃ l q, TranspositionProduct l q ∧ l.length = cycleDefect cs ∧ ∀ i, q.get i = p.get i) ∧
      (∀ l q, TranspositionProduct l q → (∀ i, q.get i = p.get i) → cycleDefect cs ≤ l.length ∧ cycleDefect cs % 2 = l.length % 2) := by
  obtain ⟨cs, p1, -⟩ := C10_cycles p hp
  refine ⟨cs, p1, ?_, ?_⟩
  · generalize hn : cycleDefect cs = n
    induction n generalizing p cs with
    | zero =>
      obtain ⟨cs', _, v1, _, _, v4⟩ := C179_rank p hp hf
      rw [p1] at v1
      cases v1
      have := v4.1 hn
      rw [C05_neutral_iff p hp] at this
      exact ⟨[], _, .nil, rfl, fun i => by rw [this]; rfl⟩
    | succ n ih =>
      have hmoved : ∃ x, p.get x ≠ x := by
        by_contra hc
        push Not at hc
        obtain ⟨cs', _, v1, _, _, v4⟩ := C179_rank p hp hf
        rw [p1] at v1
        cases v1
        have := v4.2 ((C05_neutral_iff p hp).2 hc)
        omega
      obtain ⟨x, hx⟩ := hmoved
      obtain ⟨t, t1, t2, t3, t4, t5, t6⟩ := mkPerm_transposition (Ne.symm hx)
      obtain ⟨r, r1, r2, r3, r4, _⟩ := mul_spec hp t2 (Or.inr (Or.inr (by rw [hf, t3])))
      obtain ⟨t', r', cs', ds, u1, u2, u3, u4, u5, _⟩ := C179_transposition p hp hf x (p.get x) (Ne.symm hx)
      rw [t1] at u1
      cases u1
      rw [r1] at u2
      cases u2
      rw [p1] at u3
      cases u3
      have := u5 ⟨1, rfl⟩
      obtain ⟨l, q, q1, q2, q3⟩ := ih r r2 (r4 hf t3) ds u4 (by omega)
      obtain ⟨qc, qf, _⟩ := q1.spec
      obtain ⟨s, s1, s2, s3, _⟩ := mul_spec qc t2 (Or.inr (Or.inr (by rw [qf, t3])))
      refine ⟨l ++ [(x, p.get x)], s, .snoc q1 (Ne.symm hx) t1 s1, by rw [List.length_append, q2]; rfl, fun j => ?_⟩
      rw [s3]
      simp only [Function.comp]
      rw [q3, r3]
      simp only [Function.comp]
      rw [exchange_twice t4 t5 t6]
  · intro l q hq h
    obtain ⟨qc, qf, ds, q1, q2, q3⟩ := hq.spec
    have hcd : cs = ds := by
      obtain ⟨cs', d1, d2, d3, d4, d5, d6⟩ := C10_cycles p hp
      rw [p1] at d1
      cases d1
      obtain ⟨ds', e1, e2, e3, e4, e5, e6⟩ := C10_cycles q qc
      rw [q1] at e1
      cases e1
      refine C10_cycles_unique p.get (fun x => p.get x ≠ x ∧ ∀ l, p.perilen = some l → x < l) cs ds ?_
      rintro es (rfl | rfl)
      · exact ⟨d2, d3, d4, d5, d6⟩
      · have hg : q.get = p.get := funext h
        rw [hg, qf] at e3
        rw [hg] at e4
        rw [hf]
        exact ⟨e2, e3, e4, e5, e6⟩
    rw [hcd]
    exact ⟨q2, q3⟩

/-- (0 1 2)(3 4) times (0 2) and times (2 3). -/
example : (do
    let p ← mkPerm (.cycles [[0, 1, 2], [3, 4]])
    let a ← p.mul (← mkPerm (.cycles [[0, 2]]))
    let b ← p.mul (← mkPerm (.cycles [[2, 3]]))
    return (cycleDefect (← p.cycles), ← a.cycles, cycleDefect (← a.cycles), ← b.cycles, cycleDefect (← b.cycles))) =
    .ok (3, [[1, 2], [3, 4]], 2, [[0, 1, 2, 4, 3]], 4) := by decide +kernel

/-- This list can be sorted with three exchanges (of any places), although five exchanges of neighbours are needed. -/
example : (do
    let p ← mkPerm (.seq [3, 2, 0, 1])
    return (cycleDefect (← p.cycles), p.inversionSet.length)) = .ok (3, 5) := by decide +kernel

end Verif.P
