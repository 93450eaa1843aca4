import Verif.Perm.Extra
import Mathlib.Algebra.Group.End

/-!
# Properties C01-C13 and C18 of permutations

`Constructed p` means that some constructor call with a valid argument returned `p`
(valid: a dict has unique keys, cycles are disjoint).  `mkPerm` is the constructor.
The meaning of a permutation is its function `p.get` (python `p[i]`) on all natural numbers.
-/

namespace Verif.P
open Verif.Py

/-! ## C01: `Perm(list)` -/

/-- A list is accepted iff it is a rearrangement of `0..n-1`; then it is the second line of the
two-line notation, and everything beyond is fixed. -/
theorem C01_perm_of_list (l : List Nat) :
    (l.Perm (List.range l.length) →
      ∃ p, mkPerm (.seq l) = .ok p ∧ (∀ i (h : i < l.length), p.get i = l[i]) ∧
        (∀ i, l.length ≤ i → p.get i = i) ∧ Function.Bijective p.get) ∧
    (¬ l.Perm (List.range l.length) → mkPerm (.seq l) = .error .sequenceError) := by
  constructor
  · intro h
    obtain ⟨m, m1, m2, m3⟩ := argMapping_seq h
    obtain ⟨p, p1, p2, p3, p4⟩ := finish_none m2
    refine ⟨p, by unfold mkPerm; rw [m1]; exact p1, ?_, ?_, p2.get_bijective⟩
    · intro i hi; rw [p4, m3, List.getElem?_eq_getElem hi]; rfl
    · intro i hi; rw [p4, m3, List.getElem?_eq_none hi]; rfl
  · intro h; unfold mkPerm; rw [argMapping_seq_error h]

example : [2, 0, 1, 3].Perm (List.range [2, 0, 1, 3].length) := by decide
example : mkPerm (.seq [2, 0, 1, 3]) = .ok ⟨false, [(0, 2), (1, 0), (2, 1)], none, 3⟩ := by decide
example : mkPerm (.seq [2, 0, 2]) = .error .sequenceError := by decide

/-! ## C02: `Perm(dict)` -/

theorem C02_perm_of_dict (d : Dict Nat Nat) (hd : (d.keys).Nodup) :
    (d.keys.Perm d.values →
      ∃ p, mkPerm (.dict d) = .ok p ∧ (∀ i, p.get i = (d.get? i).getD i) ∧ Function.Bijective p.get) ∧
    (¬ d.keys.Perm d.values → mkPerm (.dict d) = .error .dictError) := by
  constructor
  · intro h
    obtain ⟨m, m1, m2, m3⟩ := argMapping_dict hd h
    obtain ⟨p, p1, p2, p3, p4⟩ := finish_none m2
    exact ⟨p, by unfold mkPerm; rw [m1]; exact p1, fun i => by rw [p4, m3]; rfl, p2.get_bijective⟩
  · intro h; unfold mkPerm; rw [argMapping_dict_error h]

example : mkPerm (.dict [(5, 3), (4, 4), (3, 5)]) = .ok ⟨false, [(5, 3), (3, 5)], none, 6⟩ := by decide
example : mkPerm (.dict [(5, 3), (3, 3)]) = .error .dictError := by decide

/-! ## C03: `Perm(cycles)` -/

/-- Disjoint cycles give a bijection sending each entry to its cyclic successor.
The constructor also accepts overlapping cycles, for which this is false (`C03_overlapping_cycles`); what happens then is stated in
`C03_any_cycles` and `C03_bijective_iff` (CyclesArg.lean). -/
theorem C03_perm_of_cycles (cs : List (List Nat)) (h : cs.flatten.Nodup) :
    ∃ p, mkPerm (.cycles cs) = .ok p ∧ Function.Bijective p.get ∧
      (∀ c ∈ cs, ∀ i (hi : i < c.length),
        p.get c[i] = c[(i + 1) % c.length]'(Nat.mod_lt _ (Nat.lt_of_le_of_lt (Nat.zero_le _) hi))) ∧
      (∀ x, (∀ c ∈ cs, x ∉ c) → p.get x = x) := by
  obtain ⟨m, m1, m2, m3, m4⟩ := argMapping_cycles h
  obtain ⟨p, p1, p2, p3, p4⟩ := finish_none m2
  refine ⟨p, by unfold mkPerm; rw [m1]; exact p1, p2.get_bijective, ?_, ?_⟩
  · intro c hc i hi; rw [p4]; exact m3 c hc _ _ ⟨i, hi, rfl, rfl⟩
  · intro x hx; rw [p4]; apply m4
    rw [List.mem_flatten]; rintro ⟨c, hc, hxc⟩; exact hx c hc hxc

example : [[3, 1, 4], [0, 2]].flatten.Nodup := by decide
example : mkPerm (.cycles [[3, 1, 4], [0, 2]]) =
    .ok ⟨false, [(3, 1), (1, 4), (4, 3), (0, 2), (2, 0)], none, 5⟩ := by decide

/-- The constructor accepts overlapping cycles and then returns something which is no permutation
(1 and 2 are both sent to 0) and whose `cycles` attribute raises `KeyError`. -/
theorem C03_overlapping_cycles :
    ∃ p, mkPerm (.cycles [[0, 1], [0, 2]]) = .ok p ∧ ¬ Function.Injective p.get ∧
      p.cycles = .error .keyError := by
  refine ⟨⟨false, [(0, 2), (1, 0), (2, 0)], none, 3⟩, by decide, ?_, by decide⟩
  intro h
  exact absurd (@h 1 2 (by decide)) (by decide)

/-! ## C04: periodic permutations -/

/-- The second argument `L` repeats the pattern of the first argument (whose finite meaning is `q`). -/
theorem C04_periodic (arg : Arg) (hv : arg.Valid) (q : Perm) (hq : mkPerm arg = .ok q) (L : Nat) :
    ((∀ i, q.get i = i) → ∃ p, mkPerm arg (some L) = .ok p ∧ ∀ i, p.get i = i) ∧
    ((∃ i, q.get i ≠ i) → 2 ≤ L → (∀ i, L ≤ i → q.get i = i) →
      ∃ p, mkPerm arg (some L) = .ok p ∧ (∀ i < L, p.get i = q.get i) ∧
        (∀ i k, p.get (i + k * L) = p.get i + k * L) ∧ Function.Bijective p.get) ∧
    ((∃ i, q.get i ≠ i) → ¬ (2 ≤ L ∧ ∀ i, L ≤ i → q.get i = i) →
      mkPerm arg (some L) = .error .perilenTooSmall) := by
  unfold mkPerm at hq ⊢
  cases hm : argMapping arg with
  | error e => rw [hm] at hq; cases hq
  | ok m =>
    rw [hm] at hq
    have hg := good_argMapping hv hm
    obtain ⟨q', h1, h2, h3, h4⟩ := finish_none hg
    simp only at hq ⊢
    rw [h1] at hq
    cases hq
    have hkey : ∀ i, i ∈ m.keys ↔ q.get i ≠ i := by intro i; rw [h4]; exact hg.mem_keys_iff_ne
    have hnil : m = [] ↔ ∀ i, q.get i = i := by
      constructor
      · rintro rfl i; by_contra hc; have := (hkey i).2 hc; simp at this
      · intro h; by_contra hc
        obtain ⟨k, hk⟩ := List.exists_mem_of_ne_nil _ (keys_ne_nil hc)
        exact (hkey k).1 hk (h k)
    have hbound : (∀ k ∈ m.keys, k < L) ↔ ∀ i, L ≤ i → q.get i = i := by
      constructor
      · intro h i hi; by_contra hc; have := h i ((hkey i).2 hc); omega
      · intro h k hk; by_contra hc; exact (hkey k).1 hk (h k (by omega))
    refine ⟨?_, ?_, ?_⟩
    · intro h
      have := hnil.2 h
      subst this
      exact ⟨neutralPerm, by simp [finish], fun i => rfl⟩
    · rintro ⟨i, hi⟩ h5 h6
      have hne : m ≠ [] := fun h => hi (hnil.1 h i)
      obtain ⟨p, l, e1, e2, e3, e4, e5⟩ := finish_some hg hne h5 (hbound.2 h6)
      refine ⟨p, e1, ?_, ?_, e2.get_bijective⟩
      · intro i hi; rw [e5, per_of_lt _ hi, h4]
      · intro i k; exact (e2.shift_of_dvd e3 e4).mul k i
    · rintro ⟨i, hi⟩ h5
      have hne : m ≠ [] := fun h => hi (hnil.1 h i)
      apply finish_some_error hne
      rw [hbound]; exact h5

example : mkPerm (.seq [1, 0, 3, 2]) (some 8) = .ok ⟨false, [(0, 1), (1, 0), (2, 3), (3, 2)], some 8, 8⟩ := by decide
example : mkPerm (.seq [1, 0, 3, 2, 5, 4, 7, 6]) (some 8) = .ok ⟨false, [(0, 1), (1, 0)], some 2, 2⟩ := by decide
example : mkPerm (.seq [1, 0, 3, 2]) (some 3) = .error .perilenTooSmall := by decide

/-! ## C05: equality is extensional, period reduction is canonical -/

theorem C05_eq_extensional (p q : Perm) (hp : Constructed p) (hq : Constructed q) :
    p.eq q = true ↔ ∀ i, p.get i = q.get i := WF.eq_iff hp.wf hq.wf

/-- The stored period is a period, and the least one; the stored length is the least `n` such that
`p` maps the numbers below `n` to themselves and fixes all others (finite case). -/
theorem C05_period_minimal (p : Perm) (hp : Constructed p) (l : Nat) (hl : p.perilen = some l) :
    (∀ i, p.get (i + l) = p.get i + l) ∧
      ∀ d, 0 < d → (∀ i, p.get (i + d) = p.get i + d) → l ≤ d :=
  ⟨hp.wf.shift hl, fun _ h1 h2 => Nat.le_of_dvd h1 (hp.wf.perilen_dvd hl h2)⟩

theorem C05_length_minimal (p : Perm) (hp : Constructed p) (hl : p.perilen = none) (n : Nat) :
    (∀ i, n ≤ i → p.get i = i) ↔ p.length ≤ n := by
  constructor
  · intro h
    by_contra hc
    cases hn : p.neutral with
    | true => have := (hp.wf.neutral_perilen hn).2; omega
    | false =>
      have h1 := hp.wf.finite_length hn hl
      have hne : p.mapping ≠ [] := by
        intro h2; rw [← hp.wf.neutral_iff, hn] at h2; cases h2
      have h3 := maxNat_mem (keys_ne_nil hne)
      rw [hp.wf.good.mem_keys_iff_ne, ← get_finite hp.wf hl] at h3
      exact h3 (h _ (by omega))
  · intro h i hi; exact hp.wf.finite_bounded hl (by omega)

/-- `p` is neutral exactly if it is the identity. -/
theorem C05_neutral_iff (p : Perm) (hp : Constructed p) : p.neutral = true ↔ ∀ i, p.get i = i :=
  hp.wf.neutral_iff_get

theorem constructed_of {arg : Arg} {l : Option Nat} {p : Perm} (hv : arg.Valid) (h : mkPerm arg l = .ok p) :
    Constructed p := ⟨arg, l, hv, h⟩

example : Constructed ⟨false, [(0, 1), (1, 0)], some 2, 2⟩ :=
  constructed_of (arg := .seq [1, 0, 3, 2, 5, 4]) (l := some 6) trivial (by decide)
example : Constructed ⟨false, [(0, 2), (1, 0), (2, 1)], none, 3⟩ :=
  constructed_of (arg := .seq [2, 0, 1, 3]) (l := none) trivial (by decide)

/-! ## C06: multiplication is composition -/

theorem C06_mul (a b : Perm) (ha : Constructed a) (hb : Constructed b) :
    (SameKind a b → ∃ c, a.mul b = .ok c ∧ Constructed c ∧ ∀ i, c.get i = a.get (b.get i)) ∧
    (¬ SameKind a b → a.mul b = .error .otherPerilenMismatch) := by
  constructor
  · intro h
    obtain ⟨c, h1, h2, h3, _⟩ := mul_spec ha hb h
    exact ⟨c, h1, h2, fun i => by rw [h3]; rfl⟩
  · exact mul_error

-- two periodic factors with periods 2 and 3
example : SameKind ⟨false, [(0, 1), (1, 0)], some 2, 2⟩ ⟨false, [(0, 2), (2, 0)], some 3, 3⟩ := Or.inr (Or.inr rfl)
example : Constructed ⟨false, [(0, 2), (2, 0)], some 3, 3⟩ :=
  constructed_of (arg := .dict [(0, 2), (2, 0)]) (l := some 3) (by decide : List.Nodup [0, 2]) (by decide)
example : (Perm.mul ⟨false, [(0, 1), (1, 0)], some 2, 2⟩ ⟨false, [(0, 2), (2, 0)], some 3, 3⟩).map
    (fun c => (List.range 6).map c.get) = .ok [3, 0, 1, 4, 5, 2] := by decide
example : Perm.mul ⟨false, [(0, 1), (1, 0)], some 2, 2⟩ ⟨false, [(0, 2), (2, 0)], none, 3⟩ =
    .error .otherPerilenMismatch := by decide

/-! ## C07: group laws -/

/-- Both computations succeed with equal results (python `==`). -/
def OkEq (x y : Except Err Perm) : Prop := ∃ p q, x = .ok p ∧ y = .ok q ∧ p.eq q = true

theorem okEq_of {x y : Except Err Perm} {p q : Perm} (hx : x = .ok p) (hy : y = .ok q) (hp : Constructed p)
    (hq : Constructed q) (h : p.get = q.get) : OkEq x y :=
  ⟨p, q, hx, hy, (C05_eq_extensional p q hp hq).2 (fun i => by rw [h])⟩

/-- neutral or periodic -/
def PerKind (p : Perm) : Prop := p.neutral = true ∨ p.perilen.isSome = true

theorem sameKind_of_per {a b : Perm} (ha : PerKind a) (hb : PerKind b) : SameKind a b := by
  rcases ha with ha | ha
  · exact Or.inl ha
  · rcases hb with hb | hb
    · exact Or.inr (Or.inl hb)
    · exact Or.inr (Or.inr (by rw [ha, hb]))

theorem sameKind_of_fin {a b : Perm} (ha : a.perilen = none) (hb : b.perilen = none) : SameKind a b :=
  Or.inr (Or.inr (by rw [ha, hb]))

theorem kinds {a b : Perm} (ha : Constructed a) (hb : Constructed b) (h : SameKind a b) :
    (a.perilen = none ∧ b.perilen = none) ∨ (PerKind a ∧ PerKind b) := by
  have na := ha.wf.neutral_perilen
  have nb := hb.wf.neutral_perilen
  unfold PerKind
  rcases h with h | h | h
  · cases hb2 : b.perilen
    · left; exact ⟨(na h).1, rfl⟩
    · right; exact ⟨Or.inl h, Or.inr rfl⟩
  · cases ha2 : a.perilen
    · left; exact ⟨rfl, (nb h).1⟩
    · right; exact ⟨Or.inr rfl, Or.inl h⟩
  · cases ha2 : a.perilen <;> cases hb2 : b.perilen <;> simp_all

/-- For pairwise compatible factors all products are compatible. -/
theorem kinds3 {a b c : Perm} (ha : Constructed a) (hb : Constructed b) (hc : Constructed c)
    (h1 : SameKind a b) (h2 : SameKind b c) (h3 : SameKind a c) :
    (a.perilen = none ∧ b.perilen = none ∧ c.perilen = none) ∨ (PerKind a ∧ PerKind b ∧ PerKind c) := by
  have na := ha.wf.neutral_perilen
  have nb := hb.wf.neutral_perilen
  have nc := hc.wf.neutral_perilen
  unfold PerKind SameKind at *
  cases hpa : a.perilen <;> cases hpb : b.perilen <;> cases hpc : c.perilen <;>
    cases hna : a.neutral <;> cases hnb : b.neutral <;> cases hnc : c.neutral <;> simp_all

theorem C07_mul_assoc (a b c : Perm) (ha : Constructed a) (hb : Constructed b) (hc : Constructed c)
    (hab : SameKind a b) (hbc : SameKind b c) (hac : SameKind a c) :
    OkEq (do let x ← a.mul b; x.mul c) (do let y ← b.mul c; a.mul y) := by
  obtain ⟨x, x1, x2, x3, x4, x5⟩ := mul_spec ha hb hab
  obtain ⟨y, y1, y2, y3, y4, y5⟩ := mul_spec hb hc hbc
  have hk : SameKind x c ∧ SameKind a y := by
    rcases kinds3 ha hb hc hab hbc hac with ⟨h1, h2, h3⟩ | ⟨h1, h2, h3⟩
    · exact ⟨sameKind_of_fin (x4 h1 h2) h3, sameKind_of_fin h1 (y4 h2 h3)⟩
    · exact ⟨sameKind_of_per (x5 h1 h2) h3, sameKind_of_per h1 (y5 h2 h3)⟩
  obtain ⟨u, u1, u2, u3, _⟩ := mul_spec x2 hc hk.1
  obtain ⟨v, v1, v2, v3, _⟩ := mul_spec ha y2 hk.2
  refine okEq_of (p := u) (q := v) ?_ ?_ u2 v2 (by rw [u3, v3, x3, y3]; rfl)
  · rw [x1]; exact u1
  · rw [y1]; exact v1

theorem C07_neutral_mul (a : Perm) (ha : Constructed a) :
    OkEq (neutralPerm.mul a) (.ok a) ∧ OkEq (a.mul neutralPerm) (.ok a) := by
  obtain ⟨x, x1, x2, x3, _⟩ := mul_spec constructed_neutral ha (Or.inl rfl)
  obtain ⟨y, y1, y2, y3, _⟩ := mul_spec ha constructed_neutral (Or.inr (Or.inl rfl))
  exact ⟨okEq_of x1 rfl x2 ha (by rw [x3]; rfl), okEq_of y1 rfl y2 ha (by rw [y3]; rfl)⟩

theorem sameKind_inverse {p q : Perm} (h1 : q.perilen = p.perilen) : SameKind p q ∧ SameKind q p :=
  ⟨Or.inr (Or.inr (by rw [h1])), Or.inr (Or.inr (by rw [h1]))⟩

theorem C07_mul_inverse (a : Perm) (ha : Constructed a) :
    OkEq (do let i ← a.inverse; a.mul i) (.ok neutralPerm) ∧
    OkEq (do let i ← a.inverse; i.mul a) (.ok neutralPerm) := by
  obtain ⟨q, q1, q2, q3, q4, q5, q6⟩ := inverse_spec ha
  have hk := sameKind_inverse q3
  obtain ⟨x, x1, x2, x3, _⟩ := mul_spec ha q2 hk.1
  obtain ⟨y, y1, y2, y3, _⟩ := mul_spec q2 ha hk.2
  rw [q1]
  refine ⟨okEq_of (p := x) (q := neutralPerm) x1 rfl x2 constructed_neutral ?_,
    okEq_of (p := y) (q := neutralPerm) y1 rfl y2 constructed_neutral ?_⟩
  · rw [x3]; funext i; exact q6 i
  · rw [y3]; funext i; exact q5 i

theorem C07_inverse_inverse (a : Perm) (ha : Constructed a) :
    OkEq (do let i ← a.inverse; i.inverse) (.ok a) := by
  obtain ⟨q, q1, q2, q3, q4, q5, q6⟩ := inverse_spec ha
  obtain ⟨r, r1, r2, r3, r4, r5, r6⟩ := inverse_spec q2
  rw [q1]
  refine okEq_of (p := r) (q := a) r1 rfl r2 ha ?_
  funext i
  have := r5 (a.get i)
  rw [q5] at this
  exact this

theorem C07_mul_inverse_rev (a b : Perm) (ha : Constructed a) (hb : Constructed b) (hab : SameKind a b) :
    OkEq (do let x ← a.mul b; x.inverse) (do let i ← b.inverse; let j ← a.inverse; i.mul j) := by
  obtain ⟨x, x1, x2, x3, x4, x5⟩ := mul_spec ha hb hab
  obtain ⟨xi, xi1, xi2, xi3, xi4, xi5, xi6⟩ := inverse_spec x2
  obtain ⟨i, i1, i2, i3, i4, i5, i6⟩ := inverse_spec hb
  obtain ⟨j, j1, j2, j3, j4, j5, j6⟩ := inverse_spec ha
  have hk : SameKind i j := by
    unfold SameKind at hab ⊢
    rw [i4, j4, i3, j3]
    rcases hab with h | h | h
    · exact Or.inr (Or.inl h)
    · exact Or.inl h
    · exact Or.inr (Or.inr h.symm)
  obtain ⟨y, y1, y2, y3, _⟩ := mul_spec i2 j2 hk
  refine okEq_of (p := xi) (q := y) ?_ ?_ xi2 y2 ?_
  · rw [x1]; exact xi1
  · rw [i1, j1]; exact y1
  · funext n
    apply x2.wf.get_bijective.1
    rw [xi6, x3, y3]
    simp only [Function.comp]
    rw [i6, j6]

example : SameKind ⟨false, [(0, 1), (1, 0)], none, 2⟩ ⟨false, [(0, 2), (2, 0)], none, 3⟩ := Or.inr (Or.inr rfl)
-- multiplication is not commutative, so the order in the law of the inverse matters
example : (do let x ← Perm.mul ⟨false, [(0, 1), (1, 0)], none, 2⟩ ⟨false, [(0, 2), (2, 0)], none, 3⟩
              let y ← Perm.mul ⟨false, [(0, 2), (2, 0)], none, 3⟩ ⟨false, [(0, 1), (1, 0)], none, 2⟩
              pure (x.eq y)) = Except.ok false := by decide

/-! ## C08: powers -/

/-- `p ** n` is the power in the group of all bijections of the natural numbers, for every integer `n`. -/
theorem C08_pow (p : Perm) (hp : Constructed p) (e : Equiv.Perm Nat) (he : ∀ i, e i = p.get i) (n : Int) :
    ∃ q, p.pow n = .ok q ∧ Constructed q ∧ ∀ i, q.get i = (e ^ n) i := by
  have he' : ⇑e = p.get := funext he
  have hit : ∀ k : Nat, ∀ i, p.get^[k] i = (e ^ k) i := by
    intro k i; rw [← he', Equiv.Perm.iterate_eq_pow]
  obtain ⟨v, v1, v2, v3, v4, v5, v6⟩ := inverse_spec hp
  have hv : ∀ i, v.get i = e⁻¹ i := by
    intro i; rw [Equiv.Perm.eq_inv_iff_eq, he, v6]
  have hv' : v.get = ⇑(e⁻¹) := funext hv
  unfold Perm.pow
  split
  · rename_i h; subst h; exact ⟨_, rfl, constructed_neutral, fun i => by simp [Perm.get, neutralPerm]⟩
  · split
    · rename_i h; subst h; exact ⟨_, rfl, hp, fun i => by simp [he]⟩
    · split
      · rename_i h; subst h; exact ⟨_, v1, v2, fun i => by rw [hv]; simp⟩
      · split
        · rename_i h
          obtain ⟨q, q1, q2, q3, _⟩ := mulLoop_spec hp (n - 1).toNat p hp (fun h => h) (fun h => h)
          refine ⟨q, q1, q2, fun i => ?_⟩
          rw [q3, ← Function.iterate_succ' p.get, Nat.succ_eq_add_one, hit]
          congr 1
          rw [← zpow_natCast]
          congr 1
          omega
        · rename_i h0 h1 h2 h3
          rw [v1]
          obtain ⟨q, q1, q2, q3, _⟩ := mulLoop_spec v2 (-n - 1).toNat v v2 (fun h => h) (fun h => h)
          refine ⟨q, q1, q2, fun i => ?_⟩
          rw [q3, ← Function.iterate_succ' v.get, Nat.succ_eq_add_one, hv', Equiv.Perm.iterate_eq_pow]
          congr 1
          rw [← zpow_natCast, inv_zpow', ]
          congr 1
          omega

/-- The bijection of a constructed permutation (exists by C01-C04). -/
theorem C08_bijection (p : Perm) (hp : Constructed p) : ∃ e : Equiv.Perm Nat, ∀ i, e i = p.get i :=
  ⟨Equiv.ofBijective p.get hp.wf.get_bijective, fun _ => rfl⟩

theorem pow_kind {p : Perm} (hp : Constructed p) (n : Int) {q : Perm} (h : p.pow n = .ok q) :
    (p.perilen = none → q.perilen = none) ∧ (PerKind p → PerKind q) := by
  obtain ⟨v, v1, v2, v3, v4, v5, v6⟩ := inverse_spec hp
  have hvk : (p.perilen = none → v.perilen = none) ∧ (PerKind p → PerKind v) := by
    unfold PerKind; rw [v3, v4]; exact ⟨fun h => h, fun h => h⟩
  unfold Perm.pow at h
  split at h
  · cases h; exact ⟨fun _ => rfl, fun _ => Or.inl rfl⟩
  · split at h
    · cases h; exact ⟨fun h => h, fun h => h⟩
    · split at h
      · rw [v1] at h; cases h; exact hvk
      · split at h
        · obtain ⟨q', q1, q2, q3, q4, q5⟩ := mulLoop_spec hp (n - 1).toNat p hp (fun h => h) (fun h => h)
          rw [q1] at h; cases h
          exact ⟨q4, q5⟩
        · rw [v1] at h
          obtain ⟨q', q1, q2, q3, q4, q5⟩ := mulLoop_spec v2 (-n - 1).toNat v v2 (fun h => h) (fun h => h)
          simp only at h
          rw [q1] at h; cases h
          exact ⟨fun h => q4 (hvk.1 h), fun h => q5 (hvk.2 h)⟩

theorem C08_pow_add (p : Perm) (hp : Constructed p) (m n : Int) :
    OkEq (p.pow (m + n)) (do let x ← p.pow m; let y ← p.pow n; x.mul y) := by
  obtain ⟨e, he⟩ := C08_bijection p hp
  obtain ⟨x, x1, x2, x3⟩ := C08_pow p hp e he m
  obtain ⟨y, y1, y2, y3⟩ := C08_pow p hp e he n
  obtain ⟨z, z1, z2, z3⟩ := C08_pow p hp e he (m + n)
  have hk : SameKind x y := by
    cases hpp : p.perilen with
    | none => exact sameKind_of_fin ((pow_kind hp m x1).1 hpp) ((pow_kind hp n y1).1 hpp)
    | some l =>
      have : PerKind p := Or.inr (by rw [hpp]; rfl)
      exact sameKind_of_per ((pow_kind hp m x1).2 this) ((pow_kind hp n y1).2 this)
  obtain ⟨w, w1, w2, w3, _⟩ := mul_spec x2 y2 hk
  refine okEq_of (p := z) (q := w) z1 (by rw [x1, y1]; exact w1) z2 w2 ?_
  funext i
  rw [z3, w3, zpow_add]
  simp only [Function.comp, Equiv.Perm.mul_apply]
  rw [y3, x3]

theorem C08_pow_mul (p : Perm) (hp : Constructed p) (m n : Int) :
    OkEq (p.pow (m * n)) (do let x ← p.pow m; x.pow n) := by
  obtain ⟨e, he⟩ := C08_bijection p hp
  obtain ⟨x, x1, x2, x3⟩ := C08_pow p hp e he m
  obtain ⟨y, y1, y2, y3⟩ := C08_pow x x2 (e ^ m) (fun i => (x3 i).symm) n
  obtain ⟨z, z1, z2, z3⟩ := C08_pow p hp e he (m * n)
  refine okEq_of (p := z) (q := y) z1 (by rw [x1]; exact y1) z2 y2 ?_
  funext i
  rw [z3, y3, zpow_mul]

example : (Perm.pow ⟨false, [(0, 1), (1, 2), (2, 3), (3, 0)], none, 4⟩ (-3)).map (fun c => (List.range 5).map c.get)
    = .ok [1, 2, 3, 0, 4] := by decide

/-! ## C09: order -/

theorem C09_order (p : Perm) (hp : Constructed p) :
    ∃ o, p.order = .ok o ∧ 0 < o ∧ OkEq (p.pow o) (.ok neutralPerm) ∧
      ∀ n : Int, OkEq (p.pow n) (.ok neutralPerm) ↔ (o : Int) ∣ n := by
  obtain ⟨e, he⟩ := C08_bijection p hp
  have he' : ⇑e = p.get := funext he
  obtain ⟨o, h1, h2, h3⟩ := hp.wf.order_spec
  have key : ∀ n : Int, OkEq (p.pow n) (.ok neutralPerm) ↔ e ^ n = 1 := by
    intro n
    obtain ⟨q, q1, q2, q3⟩ := C08_pow p hp e he n
    have hid : q.eq neutralPerm = true ↔ e ^ n = 1 := by
      rw [C05_eq_extensional q _ q2 constructed_neutral]
      constructor
      · intro h; ext i; rw [← q3, h]; rfl
      · intro h i; rw [q3, h]; rfl
    rw [← hid, q1]
    constructor
    · rintro ⟨a, b, ha, hb, hab⟩; cases ha; cases hb; exact hab
    · intro h; exact ⟨_, _, rfl, rfl, h⟩
  have key2 : ∀ n : Nat, e ^ n = 1 ↔ o ∣ n := by
    intro n
    rw [← h3]
    constructor
    · intro h i; rw [← he', Equiv.Perm.iterate_eq_pow, h]; rfl
    · intro h; ext i; rw [← Equiv.Perm.iterate_eq_pow, he', h]; rfl
  have key3 : ∀ n : Int, e ^ n = 1 ↔ (o : Int) ∣ n := by
    intro n
    rcases Int.eq_nat_or_neg n with ⟨k, rfl | rfl⟩
    · rw [zpow_natCast, key2, Int.natCast_dvd_natCast]
    · rw [zpow_neg, inv_eq_one, zpow_natCast, key2, Int.dvd_neg, Int.natCast_dvd_natCast]
  refine ⟨o, h1, h2, ?_, fun n => (key n).trans (key3 n)⟩
  rw [key, key3]

example : Perm.order ⟨false, [(0, 1), (1, 0), (2, 3), (3, 4), (4, 2)], none, 5⟩ = .ok 6 := by decide

/-! ## C10: cycles -/

/-- The cycle decomposition of `p`: restricted to one period in the periodic case. -/
theorem C10_cycles (p : Perm) (hp : Constructed p) :
    ∃ cs, p.cycles = .ok cs ∧
      -- every moved element (of the first period) occurs exactly once
      cs.flatten.Nodup ∧
      (∀ x, x ∈ cs.flatten ↔ p.get x ≠ x ∧ ∀ l, p.perilen = some l → x < l) ∧
      -- each cycle has at least two entries and lists successive images
      (∀ c ∈ cs, 2 ≤ c.length ∧ ∀ i (hi : i < c.length),
        p.get c[i] = c[(i + 1) % c.length]'(Nat.mod_lt _ (Nat.lt_of_le_of_lt (Nat.zero_le _) hi))) ∧
      -- each cycle starts with its smallest element, and the cycles are ordered by that
      (∀ c ∈ cs, ∀ h, c.head? = some h → ∀ x ∈ c, h ≤ x) ∧
      cs.Pairwise (fun c d => ∀ a b, c.head? = some a → d.head? = some b → a < b) := by
  obtain ⟨cs, h1, h2⟩ := hp.wf.cycles_spec
  have hget : ∀ x, x ∈ p.mapping.keys → p.get x = dictFun p.mapping x := by
    intro x hx
    cases hpp : p.perilen with
    | none => rw [get_finite hp.wf hpp]
    | some l => rw [get_periodic hp.wf hpp, per_of_lt _ (hp.wf.per_lt l hpp x hx)]
  refine ⟨cs, h1, h2.nodup, ?_, ?_, h2.headMin, h2.sorted⟩
  · intro x
    rw [h2.mem, Dict.mem_keys_iff, hp.wf.get?_eq]
    split
    · rename_i h; exact ⟨fun _ => ⟨h.2, h.1⟩, fun _ => ⟨_, rfl⟩⟩
    · rename_i h; exact ⟨fun h' => (by obtain ⟨v, hv⟩ := h'; cases hv), fun h' => absurd ⟨h'.2, h'.1⟩ h⟩
  · intro c hc
    refine ⟨(h2.cycle c hc).two_le, ?_⟩
    intro i hi
    rw [hget c[i] ((h2.mem _).1 (List.mem_flatten.2 ⟨c, hc, List.getElem_mem _⟩)), (h2.cycle c hc).getElem hi]

/-- The five conditions of `C10_cycles` determine the list of cycles. -/
theorem C10_cycles_unique (f : Nat → Nat) (S : Nat → Prop) (cs cs' : List (List Nat))
    (h : ∀ ds, ds = cs ∨ ds = cs' → ds.flatten.Nodup ∧ (∀ x, x ∈ ds.flatten ↔ S x) ∧
      (∀ c ∈ ds, 2 ≤ c.length ∧ ∀ i (hi : i < c.length),
        f c[i] = c[(i + 1) % c.length]'(Nat.mod_lt _ (Nat.lt_of_le_of_lt (Nat.zero_le _) hi))) ∧
      (∀ c ∈ ds, ∀ h, c.head? = some h → ∀ x ∈ c, h ≤ x) ∧
      ds.Pairwise (fun c d => ∀ a b, c.head? = some a → d.head? = some b → a < b)) : cs = cs' := by
  have mk : ∀ ds, ds = cs ∨ ds = cs' → CycleSpec f ds.flatten ds := by
    intro ds hds
    obtain ⟨h1, h2, h3, h4, h5⟩ := h ds hds
    refine ⟨?_, h1, fun _ => Iff.rfl, h4, h5⟩
    intro c hc
    refine ⟨(h3 c hc).1, ?_, ?_⟩
    · exact (List.nodup_flatten.1 h1).1 c hc
    · rintro x y ⟨i, hi, rfl, rfl⟩; exact (h3 c hc).2 i hi
  exact CycleSpec.unique (mk cs (Or.inl rfl)) (mk cs' (Or.inr rfl))
    (fun x => ((h cs (Or.inl rfl)).2.1 x).trans ((h cs' (Or.inr rfl)).2.1 x).symm)

/-- `Perm(p.cycles, p.perilen) == p` -/
theorem C10_roundtrip (p : Perm) (hp : Constructed p) :
    OkEq (do let cs ← p.cycles; mkPerm (.cycles cs) p.perilen) (.ok p) := by
  obtain ⟨cs, h1, h2⟩ := hp.wf.cycles_spec
  obtain ⟨m, m1, m2, m3, m4⟩ := argMapping_cycles h2.nodup
  have hf : dictFun m = dictFun p.mapping := by
    funext x
    by_cases hx : x ∈ cs.flatten
    · obtain ⟨c, hc, hxc⟩ := List.mem_flatten.1 hx
      obtain ⟨i, hi, rfl⟩ := List.getElem_of_mem hxc
      rw [(h2.cycle c hc).getElem hi]
      exact m3 c hc _ _ ⟨i, hi, rfl, rfl⟩
    · rw [m4 x hx, dictFun_of_not_mem]; rw [← h2.mem]; exact hx
  have hmk : ∀ l, mkPerm (.cycles cs) l = finish m l := by intro l; unfold mkPerm; rw [m1]
  rw [h1]
  show OkEq (mkPerm (.cycles cs) p.perilen) _
  have done : ∀ q, finish m p.perilen = .ok q → q.get = p.get → OkEq (mkPerm (.cycles cs) p.perilen) (.ok p) :=
    fun q hq hg => okEq_of ((hmk _).trans hq) rfl ⟨.cycles cs, _, h2.nodup, (hmk _).trans hq⟩ hp hg
  cases hpp : p.perilen with
  | none =>
    rw [hpp] at done
    obtain ⟨q, q1, q2, q3⟩ := finish_same m2 (p := p) (by intro i; rw [hf, get_finite hp.wf hpp])
    exact done q q1 q3
  | some l =>
    rw [hpp] at done
    have h2l := hp.wf.per_ge l hpp
    obtain ⟨q, q1, q2, q3⟩ := finish_same_per m2 hp.wf hpp (dvd_refl l) (by omega) (by
      intro k hk
      apply hp.wf.per_lt l hpp
      rw [hp.wf.good.mem_keys_iff_ne, ← hf]
      exact m2.mem_keys_iff_ne.1 hk) (by
      intro i hi; rw [hf, get_periodic hp.wf hpp, per_of_lt _ hi])
    exact done q q1 q3

example : Perm.cycles ⟨false, [(4, 2), (2, 4), (0, 5), (5, 1), (1, 0)], some 7, 7⟩ = .ok [[0, 5, 1], [2, 4]] := by
  decide
example : Constructed ⟨false, [(4, 2), (2, 4), (0, 5), (5, 1), (1, 0)], some 7, 7⟩ :=
  constructed_of (arg := .cycles [[4, 2], [0, 5, 1]]) (l := some 7) (by decide : List.Nodup _) (by decide)

end Verif.P
