import Verif.SigPerm.Props2
import Verif.Walsh.Linear
import Verif.A.Combi

/-!
# Model of perm/metributes/schoute_perm (used for `Perm` and `SigPerm`); property C135
-/

namespace Verif.SG
open Verif.Py Verif.P Verif.BV Verif.A Verif.W

/-! ## Model -/

/-- perm/metributes/schoute_perm/__init__.py:18-19; numpy raises `IndexError` for a row beyond the matrix. -/
def fillRows (minor : Nat) : Nat → List Int → List (List Bool) → Except Err (List (List Bool))
  | _, [], longMatrix => .ok longMatrix
  | rownum, signedInt :: rest, longMatrix => do
    let pattern ← makeAtompattern signedInt minor
    if rownum < longMatrix.length then fillRows minor (rownum + 1) rest (longMatrix.set rownum pattern.vector)
    else .error .indexError

/-- perm/metributes/schoute_perm/__init__.py:23-25 -/
def columnNumber (longMatrix : List (List Bool)) (colnum : Nat) : Except Err Nat := do
  let binaryCol := longMatrix.map fun row => row.getD colnum false
  let b ← ofBools binaryCol
  return b.intval

/-- perm/metributes/schoute_perm/__init__.py:14-27; the arguments are `self.length` and `self.inverse.sequence()`. -/
def schouteCore (minor : Nat) (inverseSequence : List Int) : Except Err Perm := do
  let major := 2 ^ minor
  let longMatrix ← fillRows minor 0 inverseSequence (List.replicate minor (List.replicate major false))
  let longSequence ← (List.range major).mapM (columnNumber longMatrix)
  mkPerm (.seq longSequence) (some major)

/-- perm/metributes/schoute_perm/__init__.py:9-27 for a `Perm` -/
def permSchoutePerm (p : Perm) : Except Err Perm := do
  let inverse ← p.inverse
  let sequence ← inverse.sequence
  schouteCore p.length (sequence.map fun e : Nat => (e : Int))

/-- perm/metributes/schoute_perm/__init__.py:9-27 for a `SigPerm` (a subclass of `Perm`) -/
def SigPerm.schoutePerm (s : SigPerm) : Except Err Perm := do
  let inverse ← s.inverse
  let sequence ← inverse.sequence
  schouteCore s.length sequence

/-! ## Proof -/

theorem fillRows_spec (minor : Nat) (pat : Int → List Bool) : ∀ (l : List Int) (k : Nat) (m : List (List Bool)),
    (∀ z ∈ l, makeAtompattern z minor = .ok ⟨pat z⟩) → k + l.length ≤ m.length →
    fillRows minor k l m = .ok (m.take k ++ l.map pat ++ m.drop (k + l.length))
  | [], k, m, _, _ => by simp [fillRows]
  | z :: l, k, m, h, hk => by
    rw [List.length_cons] at hk
    rw [fillRows, h z List.mem_cons_self]
    simp only [bind, Except.bind]
    rw [if_pos (by omega), fillRows_spec minor pat l (k + 1) (m.set k (pat z)) (fun y hy => h y (List.mem_cons_of_mem _ hy)) (by rw [List.length_set]; omega)]
    congr 1
    rw [List.take_set, List.drop_set_of_lt (by omega), List.length_cons, List.map_cons]
    have e1 : (m.take (k + 1)).set k (pat z) = m.take k ++ [pat z] := by
      rw [List.take_add_one, List.getElem?_eq_getElem (by omega : k < m.length), Option.toList_some,
        List.set_append_right _ _ (by rw [List.length_take]; omega), List.length_take, Nat.min_eq_left (by omega)]
      simp
    rw [e1, show k + 1 + l.length = k + (l.length + 1) from by omega]
    simp

/-- the number with the binary digits `c.testBit |g r| ^^ (g r < 0)` -/
def bitImage (N : Nat) (g : Nat → Int) (c : Nat) : Nat := Binv.intval ⟨(List.range N).map fun r => c.testBit (nabs (g r)) ^^ decide (g r < 0)⟩

theorem testBit_bitImage (N : Nat) (g : Nat → Int) (c r : Nat) :
    (bitImage N g c).testBit r = if r < N then c.testBit (nabs (g r)) ^^ decide (g r < 0) else false := by
  unfold bitImage
  rw [testBit_vector]
  simp only [List.getElem?_map]
  split
  · next h => rw [List.getElem?_range h]; rfl
  · next h => rw [List.getElem?_eq_none (by simp; omega)]; rfl

theorem bitImage_lt (N : Nat) (g : Nat → Int) (c : Nat) : bitImage N g c < 2 ^ N := by
  apply Nat.lt_pow_two_of_testBit
  intro i hi
  rw [testBit_bitImage, if_neg (by omega)]

theorem bitImage_inj {N : Nat} {g : Nat → Int} (h : Signed g N) {a b : Nat} (ha : a < 2 ^ N) (hb : b < 2 ^ N) (e : bitImage N g a = bitImage N g b) : a = b := by
  apply Nat.eq_of_testBit_eq
  intro i
  by_cases hi : i < N
  · obtain ⟨r, hr⟩ := h.surj i
    have hrN : r < N := by rw [← h.lt_iff, hr]; exact hi
    have := congrArg (fun x => x.testBit r) e
    simp only [testBit_bitImage, if_pos hrN, hr] at this
    simpa using this
  · have h2 : 2 ^ N ≤ 2 ^ i := Nat.pow_le_pow_right (by omega) (by omega)
    rw [Nat.testBit_lt_two_pow (by omega), Nat.testBit_lt_two_pow (by omega)]

theorem perm_range_of_inj {n : Nat} {f : Nat → Nat} (hlt : ∀ i < n, f i < n) (hinj : ∀ i < n, ∀ j < n, f i = f j → i = j) :
    ((List.range n).map f).Perm (List.range n) := by
  have hnd : ((List.range n).map f).Nodup := by
    rw [List.nodup_map_iff_inj_on List.nodup_range]
    intro x hx y hy e
    exact hinj x (List.mem_range.1 hx) y (List.mem_range.1 hy) e
  apply (List.subperm_of_subset hnd _).perm_of_length_le (by simp)
  intro x hx
  obtain ⟨i, hi, rfl⟩ := List.mem_map.1 hx
  exact List.mem_range.2 (hlt i (List.mem_range.1 hi))

theorem mkPerm_periodic {n : Nat} {f : Nat → Nat} (hlt : ∀ i < n, f i < n) (hinj : ∀ i < n, ∀ j < n, f i = f j → i = j) (hn : 0 < n) :
    ∃ q, mkPerm (.seq ((List.range n).map f)) (some n) = .ok q ∧ Constructed q ∧ (q.neutral = true ∨ q.perilen.isSome = true) ∧ q.get = per f n := by
  have hperm : ((List.range n).map f).Perm (List.range ((List.range n).map f).length) := by
    simpa using perm_range_of_inj hlt hinj
  obtain ⟨m, m1, m2, m3⟩ := argMapping_seq hperm
  have hm : ∀ i, i < n → dictFun m i = f i := by
    intro i hi
    rw [m3]
    simp [hi]
  have hm2 : ∀ i, n ≤ i → dictFun m i = i := by
    intro i hi
    rw [m3]
    simp [hi]
  by_cases he : m = []
  · have hf : ∀ i, i < n → f i = i := by
      intro i hi
      rw [← hm i hi, he]
      rfl
    have hmk : mkPerm (.seq ((List.range n).map f)) (some n) = .ok neutralPerm := by
      unfold mkPerm
      rw [m1, he]
      simp [finish]
    refine ⟨_, hmk, constructed_of (arg := .seq ((List.range n).map f)) trivial hmk, Or.inl rfl, ?_⟩
    funext i
    unfold per
    rw [hf _ (Nat.mod_lt _ hn), Nat.mod_add_div]
    rfl
  · have hkeys : ∀ k ∈ m.keys, k < n := by
      intro k hk
      by_contra hc
      exact (m2.mem_keys_iff_ne.1 hk) (hm2 k (by omega))
    have h2 : 2 ≤ n := by
      obtain ⟨k, hk, hne⟩ := good_ne_id m2 he
      have h1 := hkeys k hk
      have h3 := hlt k h1
      rw [hm k h1] at hne
      omega
    obtain ⟨q, l, e1, e2, e3, e4, e5⟩ := finish_some m2 he h2 hkeys
    have hmk : mkPerm (.seq ((List.range n).map f)) (some n) = .ok q := by
      unfold mkPerm
      rw [m1]
      exact e1
    refine ⟨q, hmk, constructed_of (arg := .seq ((List.range n).map f)) trivial hmk, Or.inr (by rw [e3]; rfl), ?_⟩
    rw [e5]
    exact per_congr hn hm

/-- the result for a signed permutation given by its values -/
theorem schouteCore_spec {N : Nat} {g : Nat → Int} (h : Signed g N) :
    ∃ q, schouteCore N ((List.range N).map g) = .ok q ∧ Constructed q ∧ (q.neutral = true ∨ q.perilen.isSome = true) ∧
      (∀ n i, q.get (n + 2 ^ N * i) = q.get n + 2 ^ N * i) ∧
      ∀ n r, (q.get n).testBit r = (n.testBit (nabs (g r)) ^^ decide (g r < 0)) := by
  have hpos : 0 < 2 ^ N := Nat.two_pow_pos N
  let pat : Int → List Bool := fun z => (List.range (2 ^ N)).map fun i => i.testBit (nabs z) ^^ decide (z < 0)
  have hpat : ∀ z ∈ (List.range N).map g, makeAtompattern z N = .ok ⟨pat z⟩ := by
    intro z hz
    obtain ⟨r, hr, rfl⟩ := List.mem_map.1 hz
    have := (atompattern_spec (g r) N false).1 (h.lt r (List.mem_range.1 hr))
    rw [this]
    simp only [pat, Bool.false_bne, nabs]
  have hrows := fillRows_spec N pat ((List.range N).map g) 0 (List.replicate N (List.replicate (2 ^ N) false)) hpat (by simp)
  obtain ⟨q, q1, q2, q3, q4⟩ := mkPerm_periodic (f := bitImage N g) (n := 2 ^ N) (fun c _ => bitImage_lt N g c)
    (fun a ha b hb e => bitImage_inj h ha hb e) hpos
  refine ⟨q, ?_, q2, q3, ?_, ?_⟩
  · unfold schouteCore
    simp only [bind, Except.bind]
    rw [hrows]
    simp only
    rw [mapM_map_ok (g := bitImage N g)]
    · exact q1
    · intro c hc
      unfold columnNumber
      simp only [bind, Except.bind, pure, Except.pure, ofBools_eq]
      unfold bitImage
      congr 3
      simp only [List.take_zero, List.nil_append, List.length_map, List.length_range, Nat.zero_add, List.drop_replicate, Nat.sub_self, List.replicate_zero, List.append_nil, List.map_map]
      apply List.map_congr_left
      intro r _
      simp only [Function.comp, pat]
      rw [List.getD_eq_getElem?_getD, List.getElem?_map, List.getElem?_range (List.mem_range.1 hc)]
      rfl
  · intro n i
    rw [q4]
    unfold per
    rw [Nat.add_mul_mod_self_left, Nat.add_mul_div_left _ _ hpos, Nat.mul_add]
    omega
  · intro n r
    rw [q4]
    unfold per
    by_cases hr : r < N
    · rw [Nat.add_comm, Nat.testBit_two_pow_mul_add _ (bitImage_lt N g _), if_pos hr, testBit_bitImage, if_pos hr, Nat.testBit_mod_two_pow]
      simp [h.lt r hr]
    · rw [Nat.add_comm, Nat.testBit_two_pow_mul_add _ (bitImage_lt N g _), if_neg hr, h.fix r (by omega), nabs_nat, Nat.testBit_div_two_pow]
      rw [show r - N + N = r from by omega, decide_eq_false (by omega), Bool.xor_false]


theorem sign_iff {f g : Nat → Int} (h1 : ∀ i : Nat, ext g (f i) = i) (i : Nat) : nabs (g (nabs (f i))) = i ∧ (g (nabs (f i)) < 0 ↔ f i < 0) := by
  have := h1 i
  refine ⟨by have := congrArg nabs this; rwa [nabs_ext, nabs_nat] at this, ?_⟩
  unfold ext at this
  split at this
  · next h => unfold inv at this; constructor <;> intro <;> omega
  · next h => constructor <;> intro <;> omega

theorem schoute_spec {s : SigPerm} (hs : WF s) :
    ∃ q, s.schoutePerm = .ok q ∧ Constructed q ∧ PerKind q ∧ (∀ n i, q.get (n + 2 ^ s.length * i) = q.get n + 2 ^ s.length * i) ∧
      ∀ n i, (q.get n).testBit (nabs (s.val i)) = (n.testBit i ^^ decide (s.val i < 0)) := by
  obtain ⟨u, u1, u2, u3, u4, u5, u6⟩ := inverse_spec hs
  have hlen := inverse_length hs u2 u5 u6
  have hsig := u2.signed
  rw [hlen] at hsig
  obtain ⟨q, q1, q2, q3, q4, q5⟩ := schouteCore_spec hsig
  refine ⟨q, ?_, q2, q3, q4, ?_⟩
  · unfold SigPerm.schoutePerm
    simp only [u1, bind, Except.bind, u2.sequence_none, hlen]
    exact q1
  · intro n i
    rw [q5]
    obtain ⟨a, b⟩ := sign_iff u5 i
    rw [a]
    congr 1
    exact decide_eq_decide.2 b

theorem schoute_number {s : SigPerm} (hs : WF s) {q : Perm} (hq : ∀ n i, (q.get n).testBit (nabs (s.val i)) = (n.testBit i ^^ decide (s.val i < 0))) (n : Nat) :
    s.applyOnNaturalNumber n = .ok (q.get n) := by
  obtain ⟨m, m1, m2⟩ := applyOnNaturalNumber_spec hs n
  rw [m1]
  congr 1
  apply number_ext hs.signed
  intro i
  rw [m2, hq]

/-- **C135.** `schoute_perm` of a signed permutation is the permutation of the natural numbers, that moves the binary digit at place `i` to the place
`s[i]` unchanged, or to the place `~s[i]` flipped.  It maps `n` to `s.apply_on_natural_number(n)`. -/
theorem C135_signed (s : SigPerm) (hs : Finite s) :
    ∃ q, s.schoutePerm = .ok q ∧ Constructed q ∧
      (∀ n i, (0 ≤ s.value i → (q.get n).testBit (s.value i).toNat = n.testBit i) ∧ (s.value i < 0 → (q.get n).testBit (inv (s.value i)).toNat = !n.testBit i)) ∧
      ∀ n : Nat, s.applyOnNaturalNumber n = .ok (q.get n) := by
  obtain ⟨q, q1, q2, q3, q4, q5⟩ := schoute_spec hs.wf
  refine ⟨q, q1, q2, ?_, fun n => schoute_number hs.wf q5 n⟩
  intro n i
  obtain ⟨m, m1, m2⟩ := (C33_number s hs).1 n
  have := schoute_number hs.wf q5 n
  rw [m1] at this
  cases this
  exact m2 i

/-- **C135.** It is neutral only for the neutral signed permutation; otherwise it is periodic with period length `2 ** s.length` (which is also its length). -/
theorem C135_period (s : SigPerm) (hs : Finite s) (q : Perm) (hq : s.schoutePerm = .ok q) :
    (q.neutral = true ↔ s.neutral = true) ∧ (s.neutral = false → q.perilen = some (2 ^ s.length) ∧ q.length = 2 ^ s.length) := by
  obtain ⟨q', q1, q2, q3, q4, q5⟩ := schoute_spec hs.wf
  rw [hq] at q1
  cases q1
  have key : ∀ i, q.get (2 ^ i) = q.get 0 + 2 ^ i → s.val i = i := by
    intro i hi
    have hx : q.get (2 ^ i) = q.get 0 ^^^ 2 ^ (nabs (s.val i)) := by
      apply number_ext hs.wf.signed
      intro j
      rw [Nat.testBit_xor, q5, q5, Nat.testBit_two_pow, Nat.testBit_two_pow, Nat.zero_testBit]
      have : nabs (s.val i) = nabs (s.val j) ↔ i = j := ⟨fun h => hs.wf.signed.injective _ _ h, fun h => by rw [h]⟩
      simp only [this]
      cases decide (i = j) <;> simp
    rw [hi] at hx
    have hi2 : nabs (s.val i) = i := by
      have := congrArg (fun x => x.testBit i) hx
      simp only [Nat.testBit_xor, Nat.testBit_two_pow] at this
      rw [Nat.add_comm, Nat.testBit_two_pow_add_eq] at this
      by_contra hc
      simp [hc] at this
    rcases nabs_cases (s.val i) with ⟨_, h⟩ | ⟨h0, _⟩
    · omega
    · have hb := q5 0 i
      rw [Nat.zero_testBit, decide_eq_true h0, Bool.false_xor] at hb
      have : (q.get 0 ^^^ 2 ^ (nabs (s.val i))).testBit (nabs (s.val i)) = false := by rw [Nat.testBit_xor, Nat.testBit_two_pow, hb]; simp
      have h2 := lt_xor_two_pow this
      rw [Nat.xor_assoc, Nat.xor_self, Nat.xor_zero] at h2
      have := Nat.two_pow_pos i
      omega
  have hneu : q.neutral = true ↔ s.neutral = true := by
    rw [q2.wf.neutral_iff_get, hs.wf.neutral_iff]
    constructor
    · intro h i
      apply key
      rw [h, h]
      omega
    · intro h n
      apply Nat.eq_of_testBit_eq
      intro j
      have := q5 n j
      rw [h j, nabs_nat] at this
      rw [this, decide_eq_false (by omega), Bool.xor_false]
  refine ⟨hneu, ?_⟩
  intro hsn
  rcases q3 with h | h
  · rw [hneu.1 h] at hsn; cases hsn
  · obtain ⟨l, hl⟩ := Option.isSome_iff_exists.1 h
    have hd : l ∣ 2 ^ s.length := q2.wf.perilen_dvd hl (fun i => by have := q4 i 1; rwa [Nat.mul_one] at this)
    obtain ⟨k, hk, rfl⟩ := (Nat.dvd_prime_pow Nat.prime_two).1 hd
    have hsh : ∀ i, k ≤ i → q.get (2 ^ i) = q.get 0 + 2 ^ i := by
      intro i hi
      have := (q2.wf.shift hl).mul (2 ^ (i - k)) 0
      rwa [Nat.zero_add, ← Nat.pow_add, show i - k + k = i from by omega] at this
    have : s.length ≤ k := (hs.wf.length_le k).2 fun i hi => key i (hsh i hi)
    have : k = s.length := by omega
    rw [this] at hl
    exact ⟨hl, q2.wf.per_length _ hl⟩

/-- **C135.** `(s * t).schoute_perm == s.schoute_perm * t.schoute_perm` -/
theorem C135_product (s t : SigPerm) (hs : Finite s) (ht : Finite t) :
    ∃ st a b c d, s.mul t = .ok st ∧ st.schoutePerm = .ok c ∧ s.schoutePerm = .ok a ∧ t.schoutePerm = .ok b ∧ a.mul b = .ok d ∧ c.eq d = true := by
  obtain ⟨st, e1, e2, e3, e4, e5⟩ := mul_spec hs.wf ht.wf
  obtain ⟨c, c1, c2, c3, _, c5⟩ := schoute_spec e2
  obtain ⟨a, a1, a2, a3, _, a5⟩ := schoute_spec hs.wf
  obtain ⟨b, b1, b2, b3, _, b5⟩ := schoute_spec ht.wf
  obtain ⟨d, d1, d2, d3, _⟩ := P.mul_spec a2 b2 (sameKind_of_per a3 b3)
  refine ⟨st, a, b, c, d, e1, c1, a1, b1, d1, ?_⟩
  rw [C05_eq_extensional c d c2 d2]
  intro n
  apply number_ext e2.signed
  intro i
  rw [c5, d3, Function.comp, e5]
  simp only
  rw [nabs_ext, a5, b5, Bool.xor_assoc]
  congr 1
  have := ext_neg s.val (t.val i)
  by_cases h1 : t.val i < 0 <;> by_cases h2 : s.val (nabs (t.val i)) < 0 <;> simp [h1, h2] at this ⊢ <;> omega

/-- **C135.** `s.inverse.schoute_perm == s.schoute_perm.inverse` -/
theorem C135_inverse (s : SigPerm) (hs : Finite s) :
    ∃ u a b c, s.inverse = .ok u ∧ u.schoutePerm = .ok a ∧ s.schoutePerm = .ok b ∧ b.inverse = .ok c ∧ a.eq c = true := by
  obtain ⟨u, u1, u2, u3, u4, u5, u6⟩ := inverse_spec hs.wf
  obtain ⟨a, a1, a2, a3, _, a5⟩ := schoute_spec u2
  obtain ⟨b, b1, b2, b3, _, b5⟩ := schoute_spec hs.wf
  obtain ⟨c, c1, c2, _, _, c5, c6⟩ := P.inverse_spec b2
  refine ⟨u, a, b, c, u1, a1, b1, c1, ?_⟩
  rw [C05_eq_extensional a c a2 c2]
  intro n
  have : b.get (a.get n) = n := by
    apply number_ext hs.wf.signed
    intro i
    rw [b5]
    obtain ⟨x, y⟩ := sign_iff u5 i
    have := a5 n (nabs (s.val i))
    rw [x] at this
    rw [this]
    simp only [y, Bool.xor_assoc, Bool.xor_self, Bool.xor_false]
  have h2 := c5 (a.get n)
  rw [this] at h2
  exact h2.symm

/-- **C135.** Signed permutations with equal `schoute_perm` have the same entries. -/
theorem C135_injective (s t : SigPerm) (hs : Finite s) (ht : Finite t) (a b : Perm) (ha : s.schoutePerm = .ok a) (hb : t.schoutePerm = .ok b) :
    a.eq b = true ↔ ∀ i, s.value i = t.value i := by
  obtain ⟨a', a1, a2, a3, _, a5⟩ := schoute_spec hs.wf
  obtain ⟨b', b1, b2, b3, _, b5⟩ := schoute_spec ht.wf
  rw [ha] at a1; cases a1
  rw [hb] at b1; cases b1
  rw [C05_eq_extensional a b a2 b2, value_eq_val hs, value_eq_val ht]
  constructor
  · intro h i
    have hx : a.get (2 ^ i) ^^^ a.get 0 = 2 ^ (nabs (s.val i)) := by
      apply number_ext hs.wf.signed
      intro j
      rw [Nat.testBit_xor, a5, a5, Nat.testBit_two_pow, Nat.testBit_two_pow, Nat.zero_testBit]
      have : nabs (s.val i) = nabs (s.val j) ↔ i = j := ⟨fun h => hs.wf.signed.injective _ _ h, fun h => by rw [h]⟩
      simp only [this]
      cases decide (i = j) <;> simp
    have hy : b.get (2 ^ i) ^^^ b.get 0 = 2 ^ (nabs (t.val i)) := by
      apply number_ext ht.wf.signed
      intro j
      rw [Nat.testBit_xor, b5, b5, Nat.testBit_two_pow, Nat.testBit_two_pow, Nat.zero_testBit]
      have : nabs (t.val i) = nabs (t.val j) ↔ i = j := ⟨fun h => ht.wf.signed.injective _ _ h, fun h => by rw [h]⟩
      simp only [this]
      cases decide (i = j) <;> simp
    rw [h, h 0, hy] at hx
    have e : nabs (t.val i) = nabs (s.val i) := Nat.pow_right_injective (Nat.le_refl 2) hx
    apply signed_ext e.symm
    have h1 := a5 0 i
    have h2 := b5 0 i
    rw [h 0, ← e, h2] at h1
    simpa using h1.symm
  · intro h n
    have : s.val = t.val := funext h
    apply number_ext hs.wf.signed
    intro i
    rw [a5, this, b5]

/-- **C135.** `schoute_perm` of a `Perm` moves the binary digit at place `i` to the place `p[i]`, for places below `p.length` (the period length, if
there is one), and leaves the other digits. -/
theorem C135_perm (p : Perm) (hp : Constructed p) :
    ∃ q, permSchoutePerm p = .ok q ∧ Constructed q ∧ ∀ n i, (i < p.length → (q.get n).testBit (p.get i) = n.testBit i) ∧ (p.length ≤ i → (q.get n).testBit i = n.testBit i) := by
  obtain ⟨u, u1, u2, u3, u4, u5, u6⟩ := P.inverse_spec hp
  have hmaps : ∀ i < p.length, p.get i < p.length := by
    cases h : p.perilen with
    | none => exact hp.wf.maps_below p.length (Or.inl ⟨h, Nat.le_refl _⟩)
    | some l =>
      rw [hp.wf.per_length l h]
      exact fun i hi => hp.wf.get_lt h (Nat.dvd_refl _) hi
  have hmaps2 : ∀ i < p.length, u.get i < p.length := by
    cases h : p.perilen with
    | none =>
      apply u2.wf.maps_below p.length (Or.inl ⟨by rw [u3, h], ?_⟩)
      rw [← C05_length_minimal u u2 (by rw [u3, h])]
      intro i hi
      have := hp.wf.finite_bounded h hi
      have h2 := u5 i
      rwa [this] at h2
    | some l =>
      rw [hp.wf.per_length l h]
      exact fun i hi => u2.wf.get_lt (by rw [u3, h]) (Nat.dvd_refl _) hi
  have hsig : Signed (fun r => if r < p.length then (u.get r : Int) else (r : Int)) p.length := by
    refine ⟨?_, ?_, ?_⟩
    · intro i hi
      simp only [if_pos hi, nabs_nat]
      exact hmaps2 i hi
    · intro i j hi hj e
      simp only [if_pos hi, if_pos hj, nabs_nat] at e
      exact u2.wf.get_bijective.1 e
    · intro i hi
      simp only [if_neg (Nat.not_lt.2 hi)]
  obtain ⟨q, q1, q2, q3, q4, q5⟩ := schouteCore_spec hsig
  refine ⟨q, ?_, q2, ?_⟩
  · unfold permSchoutePerm
    simp only [u1, bind, Except.bind]
    have hseq : u.sequence = .ok ((List.range p.length).map u.get) := by
      rw [C11_sequence_default]
      cases h : p.perilen with
      | none =>
        rw [u3, h]
        have hl : u.length = p.length := by
          apply Nat.le_antisymm
          · rw [← C05_length_minimal u u2 (by rw [u3, h])]
            intro i hi
            have := hp.wf.finite_bounded h hi
            have h2 := u5 i
            rwa [this] at h2
          · rw [← C05_length_minimal p hp h]
            intro i hi
            have := u2.wf.finite_bounded (by rw [u3, h]) hi
            have h2 := u6 i
            rwa [this] at h2
        simp only
        rw [hl]
        exact ((C11_sequence u p.length).1 (by rw [u3, h])).1 (by omega)
      | some l =>
        rw [u3, h]
        simp only
        rw [hp.wf.per_length l h]
        exact ((C11_sequence u l).2 l (by rw [u3, h])).1 (Nat.dvd_refl _)
    rw [hseq]
    simp only
    rw [← q1]
    congr 1
    rw [List.map_map]
    apply List.map_congr_left
    intro r hr
    simp only [Function.comp, if_pos (List.mem_range.1 hr)]
  · intro n i
    constructor
    · intro hi
      have := q5 n (p.get i)
      simp only [if_pos (hmaps i hi), nabs_nat, u5] at this
      rw [this, decide_eq_false (by omega), Bool.xor_false]
    · intro hi
      have := q5 n i
      simp only [if_neg (Nat.not_lt.2 hi), nabs_nat] at this
      rw [this, decide_eq_false (by omega), Bool.xor_false]

/-- **C135.** For a finite permutation it is the same as that of the unsigned `SigPerm`. -/
theorem C135_unsigned (p : Perm) (hp : Constructed p) (hf : p.perilen = none) :
    ∃ s a b, new { valneg := some (.binv ⟨[]⟩), perm := some (.perm p) } = .ok s ∧ s.schoutePerm = .ok a ∧ permSchoutePerm p = .ok b ∧ a.eq b = true := by
  obtain ⟨s, s1, s2, s3, _⟩ := C31_valneg ⟨[]⟩ p hp hf
  obtain ⟨a, a1, a2, a3, _, a5⟩ := schoute_spec s2.wf
  obtain ⟨b, b1, b2, b3⟩ := C135_perm p hp
  refine ⟨s, a, b, s1, a1, b1, ?_⟩
  rw [C05_eq_extensional a b a2 b2]
  intro n
  have hv : ∀ i, s.val i = p.get i := by
    intro i
    rw [← value_eq s2.wf, s3]
    simp [testBit_vector]
  apply number_ext s2.wf.signed
  intro i
  rw [a5, hv, nabs_nat, decide_eq_false (by omega), Bool.xor_false]
  by_cases hi : i < p.length
  · exact ((b3 n i).1 hi).symm
  · have := hp.wf.finite_bounded hf (Nat.le_of_not_lt hi)
    rw [this]
    exact ((b3 n i).2 (by omega)).symm

/-- **C135.** For periodic permutations `schoute_perm` does not respect products: only the digits in the first period are moved. -/
theorem C135_periodic_product :
    ∃ p q, mkPerm (.seq [1, 0]) (some 2) = .ok p ∧ mkPerm (.seq [0, 2, 1]) (some 3) = .ok q ∧
      (do
        let pq ← p.mul q
        let a ← permSchoutePerm p
        let b ← permSchoutePerm q
        let c ← permSchoutePerm pq
        return c.eq (← a.mul b)) = .ok false :=
  ⟨⟨false, [(0, 1), (1, 0)], some 2, 2⟩, ⟨false, [(1, 2), (2, 1)], some 3, 3⟩, by decide +kernel, by decide +kernel, by decide +kernel⟩

example : (new { sequence := some [-3, 0, 1] }).bind (·.schoutePerm) = mkPerm (.seq [4, 0, 5, 1, 6, 2, 7, 3]) (some 8) := by decide +kernel
example : (mkPerm (.seq [2, 0, 1])).bind permSchoutePerm = mkPerm (.seq [0, 4, 1, 5, 2, 6, 3, 7]) (some 8) := by decide +kernel

end Verif.SG
