import Verif.Boolf.Props59

/-!
# C113, C114: the signed permutations in `ec_clan_matrix`
-/

namespace Verif.BF
open Verif.Py Verif.BV Verif.P Verif.W Verif.SP
open Verif.A hiding Mat

/-- The signed permutation with the indices `k` (`keyneg`), `p` (`perm`) and `v` (`valneg`) turns the function `f` into `g`: the value of `f` at a place is that of `g` at
the place to which the signed permutation moves it. -/
def Turns (f g : Boolf) (k p v : Nat) : Prop :=
  v < 2 ^ f.adicity ∧ p < Nat.factorial f.adicity ∧ ∃ σ, SG.new { valnegIndex := some (v : Int), permIndex := some (p : Int) } = .ok σ ∧ σ.keynegIndex = .ok k ∧
    ∀ i j : Nat, σ.applyOnNaturalNumber i = .ok j → g.getItem j = f.getItem i

/-- the signed permutation of a pair, with its action on numbers and its `keyneg_index` -/
theorem sigperm_keyneg {n p v : Nat} {t : List Nat} (hm : v < 2 ^ n) (hk : (revColexPerms n)[p]? = some t) :
    ∃ (σ : SG.SigPerm) (φ : Nat → Nat) (r : Nat → Nat) (k : Nat), SG.new { valnegIndex := some (v : Int), permIndex := some (p : Int) } = .ok σ ∧
      (∀ i : Nat, σ.applyOnNaturalNumber i = .ok (φ i)) ∧ σ.keynegIndex = .ok k ∧ k < 2 ^ n ∧ (∀ x < n, k.testBit x = v.testBit (r x)) ∧
      (∀ x < n, t[x]? = some (r x)) ∧ (∀ x < n, r x < n) ∧ (∀ x < n, ∀ y < n, r x = r y → x = y) ∧
      ∀ i, Moves n r (fun x => v.testBit (r x)) i (φ i) := by
  obtain ⟨σ, φ, r, s1, s2, s3, s4, s5, s6⟩ := sigperm_number hm hk
  obtain ⟨ht, p0, _, q2, q3, q4, q5, q, p1, p5⟩ := perm_at hk
  obtain ⟨q', p1', p2, p3, _⟩ := C15_rank_of_int p
  rw [p1] at p1'
  cases p1'
  obtain ⟨b, b1, b2, _⟩ := C26_intval_only v
  obtain ⟨σ', σ1, σ2, σ3, _⟩ := SG.C31_valneg b q p2 p3
  have hb1 : BV.mk { intval := some (v : Int) } = .ok b := b1
  have hσ : SG.new { valnegIndex := some (v : Int), permIndex := some (p : Int) } = .ok σ' := by
    rw [← σ1]
    simp [SG.new, SG.convNeg, SG.convPerm, SG.usePair, SG.useNegIndex, SG.usePermIndex, bind, Except.bind, Except.map, hb1, p1]
  have hσ2 : SG.new { pair := some ((v : Int), (p : Int)) } = .ok σ' := by
    rw [← σ1]
    simp [SG.new, SG.convNeg, SG.convPerm, SG.usePair, SG.useNegIndex, SG.usePermIndex, bind, Except.bind, Except.map, hb1, p1]
  rw [s1] at hσ2
  cases hσ2
  obtain ⟨k, _, _, k1, _, k2, _⟩ := SG.C31_keyneg_index σ σ2
  have hr : ∀ x < n, q.get x = r x := fun x hx => by
    rw [p5]
    exact Option.some.inj ((q5 x hx).symm.trans (s3 x hx))
  have hfix : ∀ x, n ≤ x → q.get x = x := fun x hx => by rw [p5]; exact q2.wf.finite_bounded q3 (by omega)
  have hneg : ∀ x, k.testBit x = v.testBit (q.get x) := by
    intro x
    rw [Bool.eq_iff_iff, k2, σ3, b2]
    cases hc : v.testBit (q.get x) with
    | true => simp [inv]; omega
    | false => simp
  refine ⟨σ, φ, r, k, hσ, s2, k1, ?_, fun x hx => by rw [hneg, hr x hx], s3, s4, s5, s6⟩
  apply Nat.lt_pow_two_of_testBit
  intro x hx
  rw [hneg, hfix x hx]
  exact Nat.testBit_lt_two_pow (lt_of_lt_of_le hm (Nat.pow_le_pow_right (by decide) hx))

theorem Moves.exists_source (n : Nat) (r : Nat → Nat) (s : Nat → Bool) (j : Nat) :
    ∃ i, Moves n r s i j := by
  obtain ⟨m, m1, m2⟩ := digits_at (n := n) (A := List.range n) (r := id) (fun x hx => List.mem_range.1 hx) (fun _ _ _ _ h => h) fun x => (j.testBit (r x) ^^ s x)
  refine ⟨2 ^ n * (j / 2 ^ n) + m, fun x hx => ?_, fun x hx => ?_⟩
  · rw [Nat.testBit_two_pow_mul_add _ m1, if_pos hx]
    have := m2 x (List.mem_range.2 hx)
    simp only [id] at this
    rw [this]
    simp
  · rw [Nat.testBit_two_pow_mul_add _ m1, if_neg (by omega), Nat.testBit_div_two_pow]
    congr 1
    omega

/-- the members of a clan, with their signed permutations -/
structure ClanData (f : Boolf) (E : EcPart) (lab : Nat → Boolf) (κ : Nat → Nat) (r : Nat → Nat → Nat) : Prop where
  ec : f.ecClan 1 none false = .ok E
  dims : E.dims.getLastD 1 = Nat.factorial f.adicity
  labels : Labelling E.part (2 ^ f.adicity * Nat.factorial f.adicity) lab
  reach : ∀ i < 2 ^ f.adicity * Nat.factorial f.adicity, Reach (lab i)
  sigperm : ∀ i < 2 ^ f.adicity * Nat.factorial f.adicity, ∃ σ, SG.new { valnegIndex := some (((i / Nat.factorial f.adicity : Nat) : Int)), permIndex := some (((i % Nat.factorial f.adicity : Nat) : Int)) } = .ok σ ∧
    σ.keynegIndex = .ok (κ i)
  keyneg : ∀ i < 2 ^ f.adicity * Nat.factorial f.adicity, κ i < 2 ^ f.adicity
  bits : ∀ i < 2 ^ f.adicity * Nat.factorial f.adicity, ∀ x < f.adicity, (κ i).testBit x = (i / Nat.factorial f.adicity).testBit (r (i % Nat.factorial f.adicity) x)
  lt : ∀ p < Nat.factorial f.adicity, ∀ x < f.adicity, r p x < f.adicity
  inj : ∀ p < Nat.factorial f.adicity, ∀ x < f.adicity, ∀ y < f.adicity, r p x = r p y → x = y
  eval : ∀ i < 2 ^ f.adicity * Nat.factorial f.adicity, ∀ a : Nat → Bool,
    (lab i).eval a = f.eval fun x => (a (r (i % Nat.factorial f.adicity) x) ^^ (κ i).testBit x)
  turns : ∀ i < 2 ^ f.adicity * Nat.factorial f.adicity, ∀ g, Reach g → (lab i = g ↔ Turns f g (κ i) (i % Nat.factorial f.adicity) (i / Nat.factorial f.adicity))
  all : ∀ s : Nat → Nat, (∀ x < f.adicity, s x < f.adicity) → (∀ x < f.adicity, ∀ y < f.adicity, s x = s y → x = y) → ∃ p < Nat.factorial f.adicity, ∀ x < f.adicity, r p x = s x

theorem clan_data {f : Boolf} (hf : Reach f) (hv : f.valency = f.adicity) (ha : f.isConstant = true ∨ f.adicity ≤ 5) : ∃ E lab κ r, ClanData f E lab κ r := by
  obtain ⟨E, lab, e1, e2, e3, e4⟩ := clan_labelling hf hv ha
  obtain ⟨n, hn⟩ : ∃ n, n = f.adicity := ⟨_, rfl⟩
  obtain ⟨c, hc⟩ : ∃ c, c = Nat.factorial n := ⟨_, rfl⟩
  have hc0 : 0 < c := by rw [hc]; exact Nat.factorial_pos n
  have hr : ∀ p, ∃ r : Nat → Nat, p < c → (∃ t, (revColexPerms n)[p]? = some t ∧ ∀ x < n, t[x]? = some (r x)) ∧ (∀ x < n, r x < n) ∧ (∀ x < n, ∀ y < n, r x = r y → x = y) := by
    intro p
    by_cases hp : p < c
    · have ht := List.getElem?_eq_getElem (l := revColexPerms n) (i := p) (by rw [length_revColexPerms, ← hc]; exact hp)
      obtain ⟨_, _, r, _, _, _, _, _, _, s3, s4, s5, _⟩ := sigperm_keyneg (v := 0) (Nat.two_pow_pos n) ht
      exact ⟨r, fun _ => ⟨⟨_, ht, s3⟩, s4, s5⟩⟩
    · exact ⟨id, fun h => absurd h hp⟩
  choose r hr using hr
  have hne : Nonempty SG.SigPerm := by
    obtain ⟨⟨t, ht, _⟩, _⟩ := hr 0 hc0
    obtain ⟨σ, _⟩ := sigperm_keyneg (v := 0) (Nat.two_pow_pos n) ht
    exact ⟨σ⟩
  have hk : ∀ i, ∃ (k : Nat) (σ : SG.SigPerm) (φ : Nat → Nat), i < 2 ^ n * c → SG.new { valnegIndex := some (((i / c : Nat) : Int)), permIndex := some (((i % c : Nat) : Int)) } = .ok σ ∧
      (∀ i : Nat, σ.applyOnNaturalNumber i = .ok (φ i)) ∧ σ.keynegIndex = .ok k ∧ k < 2 ^ n ∧ (∀ x < n, k.testBit x = (i / c).testBit (r (i % c) x)) ∧
      ∀ j, Moves n (r (i % c)) (fun x => (i / c).testBit (r (i % c) x)) j (φ j) := by
    intro i
    by_cases hi : i < 2 ^ n * c
    · obtain ⟨⟨t, ht, hrt⟩, _, _⟩ := hr (i % c) (Nat.mod_lt _ hc0)
      obtain ⟨σ, φ, r', k, s1, s2, k1, k2, k3, s3, s4, s5, s6⟩ := sigperm_keyneg (v := i / c) (p := i % c) (n := n) (Nat.div_lt_of_lt_mul (by rwa [Nat.mul_comm])) ht
      have hrr : ∀ x < n, r' x = r (i % c) x := fun x hx => Option.some.inj ((s3 x hx).symm.trans (hrt x hx))
      exact ⟨k, σ, φ, fun _ => ⟨s1, s2, k1, k2, fun x hx => by rw [k3 x hx, hrr x hx],
        fun j => ⟨fun x hx => by simp only [← hrr x hx]; exact (s6 j).1 x hx, (s6 j).2⟩⟩⟩
    · exact ⟨0, Classical.choice hne, id, fun h => absurd h hi⟩
  choose κ σ φ hk using hk
  have hval : ∀ i, i < 2 ^ n * c → i / c < 2 ^ n := fun i hi => Nat.div_lt_of_lt_mul (by rwa [Nat.mul_comm])
  have hidx : ∀ i, i / c * c + i % c = i := fun i => by rw [Nat.mul_comm]; exact Nat.div_add_mod i c
  have hlits : ∀ i < 2 ^ n * c, Lits f (fun x => slit ((i / c).testBit (r (i % c) x)) (r (i % c) x : Nat)) (lab i) := by
    intro i hi
    obtain ⟨⟨t, ht, hrt⟩, _, _⟩ := hr (i % c) (Nat.mod_lt _ hc0)
    have := e4 (i / c) (i % c) t (r (i % c)) (by rw [← hn]; exact hval i hi) (by rw [← hn]; exact ht) (by rw [← hn]; exact hrt)
    rwa [← hn, ← hc, hidx] at this
  have hat : ∀ x ∈ f.atomvals, x < n := fun x hx => by rw [hn]; exact hf.canon.toSound.adic_lt hx
  have heval : ∀ i < 2 ^ n * c, ∀ a : Nat → Bool, (lab i).eval a = f.eval fun x => (a (r (i % c) x) ^^ (κ i).testBit x) := by
    intro i hi a
    rw [(hlits i hi).2]
    refine Boolf.eval_congr fun x hx => ?_
    rw [lit_slit, (hk i hi).2.2.2.2.1 x (hat x hx)]
  refine ⟨E, lab, κ, r, e1, e2, e3, ?_, ?_, ?_, ?_, ?_, ?_, ?_, ?_, ?_⟩ <;> rw [← hn] <;> rw [← hc]
  · exact fun i hi => (hlits i hi).1.reach
  · exact fun i hi => ⟨σ i, (hk i hi).1, (hk i hi).2.2.1⟩
  · exact fun i hi => (hk i hi).2.2.2.1
  · exact fun i hi => (hk i hi).2.2.2.2.1
  · exact fun p hp => (hr p hp).2.1
  · exact fun p hp => (hr p hp).2.2
  · exact heval
  · intro i hi g hg
    obtain ⟨k1, k2, k3, k4, k5, k6⟩ := hk i hi
    have hmoved : ∀ j, (lab i).getItem (φ i j : Nat) = f.getItem j := by
      intro j
      rw [getItem_eq (hlits i hi).1.toSound, getItem_eq hf.canon.toSound, heval i hi]
      congr 1
      refine Boolf.eval_congr fun x hx => ?_
      rw [(k6 j).1 x (hat x hx), k5 x (hat x hx)]
      simp
    constructor
    · rintro rfl
      refine ⟨by rw [← hn]; exact hval i hi, by rw [← hn, ← hc]; exact Nat.mod_lt _ hc0, σ i, k1, k3, fun j j' hj => ?_⟩
      rw [k2] at hj
      cases hj
      exact hmoved j
    · rintro ⟨_, _, σ', s1, s2, s3⟩
      rw [k1] at s1
      cases s1
      apply (hlits i hi).1.ext_key hg.canon
      intro key
      obtain ⟨j, hj⟩ := Moves.exists_source n (r (i % c)) (fun x => (i / c).testBit (r (i % c) x)) key
      obtain rfl : key = φ i j := Moves.unique (hr (i % c) (Nat.mod_lt _ hc0)).2.1 (hr (i % c) (Nat.mod_lt _ hc0)).2.2 (fun _ _ => rfl) (fun _ _ => rfl) (k6 j) hj
      rw [hmoved, s3 j _ (k2 j)]
  · intro s s1 s2
    obtain ⟨m, p, t, _, t1, t2, t3, _⟩ := element_of_pair (fun _ => false) s1 s2
    obtain ⟨⟨t', ht', hrt⟩, _, _⟩ := hr p (by rw [hc]; exact t2)
    rw [t1] at ht'
    cases ht'
    exact ⟨p, by rw [hc]; exact t2, fun x hx => Option.some.inj ((hrt x hx).symm.trans (t3 x hx))⟩

end Verif.BF
