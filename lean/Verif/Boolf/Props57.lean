import Verif.Boolf.Model15
import Verif.Boolf.Props56
import Verif.Boolf.Props27
import Mathlib.Data.Fintype.EquivFin
import Mathlib.Tactic.IntervalCases

/-!
# C106 and C107: partitions of spots and places by symmetries
-/

namespace Verif.BF
open Verif.Py Verif.BV Verif.P Verif.W Verif.SP
open Verif.A hiding Mat

/-- Specification: replacing each argument `x` (below `n`) by the argument `r x`, negated when `s x` is true, is a rearrangement that does not change the values. -/
structure Symmetry (f : Boolf) (n : Nat) (r : Nat → Nat) (s : Nat → Bool) : Prop where
  lt : ∀ x < n, r x < n
  inj : ∀ x < n, ∀ y < n, r x = r y → x = y
  same : ∀ key key' : Nat, (∀ x < n, key'.testBit x = (key.testBit (r x) ^^ s x)) → f.getItem key = f.getItem key'

/-- Specification: the symmetry moves the place `i` to the place `j`; only the first `n` digits are changed. -/
def Moves (n : Nat) (r : Nat → Nat) (s : Nat → Bool) (i j : Nat) : Prop :=
  (∀ x < n, j.testBit (r x) = (i.testBit x ^^ s x)) ∧ ∀ x, n ≤ x → j.testBit x = i.testBit x

/-! ## symmetries are a group -/

theorem inv_below {n : Nat} {r : Nat → Nat} (h1 : ∀ x < n, r x < n) (h2 : ∀ x < n, ∀ y < n, r x = r y → x = y) :
    ∃ r' : Nat → Nat, (∀ x < n, r' x < n) ∧ (∀ x < n, r (r' x) = x) ∧ ∀ x < n, r' (r x) = x := by
  have hinj : Function.Injective (fun x : Fin n => (⟨r x, h1 x x.2⟩ : Fin n)) := by
    intro x y h
    have : r x = r y := congrArg Fin.val h
    exact Fin.ext (h2 x x.2 y y.2 this)
  have hsurj := Finite.injective_iff_surjective.1 hinj
  have hex : ∀ y < n, ∃ x < n, r x = y := by
    intro y hy
    obtain ⟨x, hx⟩ := hsurj ⟨y, hy⟩
    exact ⟨x, x.2, congrArg Fin.val hx⟩
  classical
  refine ⟨fun y => if h : y < n then (hex y h).choose else y, ?_, ?_, ?_⟩
  · intro y hy
    simp only [dif_pos hy]
    exact (hex y hy).choose_spec.1
  · intro y hy
    simp only [dif_pos hy]
    exact (hex y hy).choose_spec.2
  · intro x hx
    simp only [dif_pos (h1 x hx)]
    exact h2 _ (hex _ (h1 x hx)).choose_spec.1 _ hx (hex _ (h1 x hx)).choose_spec.2

theorem Symmetry.refl {f : Boolf} (hf : Reach f) {n : Nat} (hn : f.adicity ≤ n) : Symmetry f n id fun _ => false where
  lt := fun _ h => h
  inj := fun _ _ _ _ h => h
  same := fun key key' h => by
    rw [getItem_eq hf.canon.toSound, getItem_eq hf.canon.toSound]
    congr 1
    apply Boolf.eval_congr
    intro x hx
    have := h x (lt_of_lt_of_le (hf.canon.toSound.adic_lt hx) hn)
    rw [this]
    simp

/-- `i` is moved to `j` by some symmetry, which without `signed` negates nothing -/
def MovedTo (f : Boolf) (n : Nat) (signed : Bool) (i j : Nat) : Prop :=
  ∃ r s, (signed = false → ∀ x, s x = false) ∧ Symmetry f n r s ∧ Moves n r s i j

theorem MovedTo.symm {f : Boolf} {n : Nat} {signed : Bool} {i j : Nat} (h : MovedTo f n signed i j) : MovedTo f n signed j i := by
  obtain ⟨r, s, h0, h1, h2, h3⟩ := h
  obtain ⟨r', a1, a2, a3⟩ := inv_below h1.lt h1.inj
  refine ⟨r', fun y => s (r' y), fun hs x => h0 hs _, ⟨a1, fun x hx y hy h => ?_, fun key key' hk => ?_⟩, fun y hy => ?_, fun x hx => (h3 x hx).symm⟩
  · rw [← a2 x hx, ← a2 y hy, h]
  · refine (h1.same key' key fun x hx => ?_).symm
    rw [hk _ (h1.lt x hx), a3 x hx]
    simp
  · have := h2 _ (a1 y hy)
    rw [a2 y hy] at this
    rw [this]
    simp

theorem MovedTo.trans {f : Boolf} {n : Nat} {signed : Bool} {i j k : Nat} (h : MovedTo f n signed i j) (h' : MovedTo f n signed j k) : MovedTo f n signed i k := by
  obtain ⟨r, s, h0, h1, h2, h3⟩ := h
  obtain ⟨r', s', h0', h1', h2', h3'⟩ := h'
  refine ⟨fun x => r' (r x), fun x => (s x ^^ s' (r x)), fun hs x => by simp [h0 hs, h0' hs], ⟨fun x hx => h1'.lt _ (h1.lt x hx), fun x hx y hy h => ?_, fun key key' hk => ?_⟩,
    fun x hx => ?_, fun x hx => (h3' x hx).trans (h3 x hx)⟩
  · exact h1.inj x hx y hy (h1'.inj _ (h1.lt x hx) _ (h1.lt y hy) h)
  · obtain ⟨m, _, hm⟩ := digits_at (n := n) (A := List.range n) (r := id) (fun x hx => List.mem_range.1 hx) (fun _ _ _ _ h => h) fun y => (key.testBit (r' y) ^^ s' y)
    have hm' : ∀ y < n, m.testBit y = (key.testBit (r' y) ^^ s' y) := fun y hy => hm y (List.mem_range.2 hy)
    rw [h1'.same key m hm']
    refine h1.same m key' fun x hx => ?_
    rw [hk x hx, hm' _ (h1.lt x hx), Bool.xor_assoc, Bool.xor_comm (s x)]
  · rw [h2' _ (h1.lt x hx), h2 x hx, Bool.xor_assoc]

theorem MovedTo.getItem {f : Boolf} {n : Nat} {signed : Bool} {i j : Nat} (h : MovedTo f n signed i j) : f.getItem j = f.getItem i := by
  obtain ⟨r, s, _, h1, h2, _⟩ := h
  refine h1.same j i fun x hx => ?_
  rw [h2 x hx]
  simp

/-! ## the signed permutations of the blocks -/

/-- the signed permutation of a pair, applied on numbers -/
theorem sigperm_number {n k m : Nat} {t : List Nat} (hm : m < 2 ^ n) (hk : (revColexPerms n)[k]? = some t) :
    ∃ (σ : SG.SigPerm) (φ : Nat → Nat) (r : Nat → Nat), SG.new { pair := some ((m : Int), (k : Int)) } = .ok σ ∧ (∀ i : Nat, σ.applyOnNaturalNumber i = .ok (φ i)) ∧
      (∀ x < n, t[x]? = some (r x)) ∧ (∀ x < n, r x < n) ∧ (∀ x < n, ∀ y < n, r x = r y → x = y) ∧
      ∀ i, Moves n r (fun x => m.testBit (r x)) i (φ i) := by
  obtain ⟨ht, p0, _, q2, q3, q4, q5, p, p1, p5⟩ := perm_at hk
  obtain ⟨p', p1', p2, p3, _⟩ := C15_rank_of_int k
  rw [p1] at p1'
  cases p1'
  obtain ⟨b, b1, b2, _⟩ := C26_intval_only m
  obtain ⟨σ, σ1, σ2, σ3, _⟩ := SG.C31_valneg b p p2 p3
  have hb1 : BV.mk { intval := some (m : Int) } = .ok b := b1
  have hσ : SG.new { pair := some ((m : Int), (k : Int)) } = .ok σ := by
    rw [← σ1]
    simp [SG.new, SG.convNeg, SG.convPerm, SG.usePair, SG.useNegIndex, SG.usePermIndex, bind, Except.bind, Except.map, hb1, p1]
  choose φ φ1 φ2 using SG.applyOnNaturalNumber_spec σ2.wf
  have hfix : ∀ x, n ≤ x → p.get x = x := fun x hx => by rw [p5]; exact q2.wf.finite_bounded q3 (by omega)
  have hv : ∀ x, σ.val x = if m.testBit (p.get x) then inv (p.get x) else p.get x := fun x => by
    rw [← SG.value_eq σ2.wf, σ3, b2]
  have hφ : ∀ i x, (φ i).testBit (p.get x) = (i.testBit x ^^ m.testBit (p.get x)) := by
    intro i x
    have := φ2 i x
    rw [hv] at this
    cases hc : m.testBit (p.get x) <;> simp only [hc, if_true, if_false, Bool.false_eq_true] at this ⊢
    · rw [SG.nabs_nat] at this
      rw [this, decide_eq_false (by omega)]
    · rw [SG.nabs_inv, SG.nabs_nat] at this
      rw [this, decide_eq_true (by unfold inv; omega)]
  refine ⟨σ, φ, p.get, hσ, φ1, fun x hx => by rw [p5]; exact q5 x hx, fun x hx => ?_, fun x _ y _ h => p2.wf.get_bijective.1 h, fun i => ⟨fun x _ => hφ i x, fun x hx => ?_⟩⟩
  · have := List.mem_of_getElem? (q5 x hx)
    rw [p5]
    exact List.mem_range.1 (ht.mem_iff.1 this)
  · have := hφ i x
    rw [hfix x hx] at this
    rw [this, Nat.testBit_lt_two_pow (lt_of_lt_of_le hm (Nat.pow_le_pow_right (by decide) hx))]
    simp

/-- the number to which a place is moved is unique -/
theorem Moves.unique {n : Nat} {r r' : Nat → Nat} {s s' : Nat → Bool} {i j j' : Nat} (h1 : ∀ x < n, r x < n) (h2 : ∀ x < n, ∀ y < n, r x = r y → x = y)
    (hr : ∀ x < n, r' x = r x) (hs : ∀ x < n, s' x = s x) (h : Moves n r s i j) (h' : Moves n r' s' i j') : j' = j := by
  obtain ⟨q, q1, q2, _⟩ := inv_below h1 h2
  apply Nat.eq_of_testBit_eq
  intro y
  by_cases hy : y < n
  · have a := h.1 _ (q1 y hy)
    have b := h'.1 _ (q1 y hy)
    rw [hr _ (q1 y hy), hs _ (q1 y hy)] at b
    rw [q2 y hy] at a b
    rw [a, b]
  · rw [h.2 y (by omega), h'.2 y (by omega)]

/-! ## merging -/

theorem mergeAll_append [DecidableEq L] (r : Except Err (SetPart L)) (l l' : List (Int × Int)) : mergeAll r (l ++ l') = mergeAll (mergeAll r l) l' := by
  cases r with
  | error e => rfl
  | ok p =>
    simp only [mergeAll]
    induction l generalizing p with
    | nil => simp only [List.nil_append, SetPart.mergePairs]
    | cons ab l ih =>
      obtain ⟨a, b⟩ := ab
      simp only [List.cons_append, SetPart.mergePairs]
      cases h : p.mergePair a b with
      | mk e q =>
        cases e with
        | error e => rfl
        | ok u => exact ih q

theorem mergeAll_cons [DecidableEq L] (p : SetPart L) (a b : Int) (l : List (Int × Int)) :
    mergeAll (.ok p) ((a, b) :: l) = (p.mergePair a b).1.bind fun _ => mergeAll (.ok (p.mergePair a b).2) l := by
  simp only [mergeAll, SetPart.mergePairs]
  cases h : p.mergePair a b with
  | mk e q => cases e <;> rfl

theorem mergeSpots_eq {σ : SG.SigPerm} {φ : Nat → Nat} (hφ : ∀ i : Nat, σ.applyOnNaturalNumber i = .ok (φ i)) (spots : List Nat) (p : SetPart Unit) :
    mergeSpots σ spots p = mergeAll (.ok p) (spots.map fun i : Nat => ((i : Int), (φ i : Int))) := by
  induction spots generalizing p with
  | nil => rfl
  | cons i spots ih =>
    rw [List.map_cons, mergeAll_cons, mergeSpots, hφ]
    simp only [bind, Except.bind, ih]

theorem mergePlaces_eq {tt : Binv} {σ : SG.SigPerm} {φ : Nat → Nat} (hφ : ∀ i : Nat, σ.applyOnNaturalNumber i = .ok (φ i)) (places : List Nat)
    (ht : ∀ i ∈ places, ∃ b, tt.getItem (φ i : Nat) = .ok b ∧ tt.getItem i = .ok b) (p : SetPart Unit) :
    mergePlaces tt σ places p = mergeAll (.ok p) (places.map fun i : Nat => ((i : Int), (φ i : Int))) := by
  induction places generalizing p with
  | nil => rfl
  | cons i places ih =>
    obtain ⟨b, b1, b2⟩ := ht i (by simp)
    rw [List.map_cons, mergeAll_cons, mergePlaces, hφ]
    simp only [bind, Except.bind, b1, b2, if_true]
    simp only [ih fun j hj => ht j (by simp [hj])]

theorem eqvGen_mono {R Q : Nat → Nat → Prop} (h : ∀ a b, R a b → Q a b) (hs : ∀ a b, Q a b → Q b a) (ht : ∀ a b c, Q a b → Q b c → Q a c) {a b : Nat}
    (hab : Relation.EqvGen R a b) : a = b ∨ Q a b := by
  induction hab with
  | rel u v huv => exact .inr (h u v huv)
  | refl u => exact .inl rfl
  | symm u v _ ih => exact ih.imp Eq.symm (hs u v)
  | trans u v w _ _ ih1 ih2 =>
    rcases ih1 with rfl | h1
    · exact ih2
    · rcases ih2 with rfl | h2
      · exact .inr h1
      · exact .inr (ht u v w h1 h2)

/-- merging each number with the numbers to which it is moved -/
theorem merge_moves {Q : Nat → Nat → Prop} (hs : ∀ a b, Q a b → Q b a) (ht : ∀ a b c, Q a b → Q b c → Q a c) {spots elements : List Nat} {φ : Nat → Nat → Nat}
    (h1 : ∀ e ∈ elements, ∀ i ∈ spots, φ e i ∈ spots ∧ Q i (φ e i)) (h2 : ∀ i ∈ spots, ∀ j ∈ spots, Q i j → ∃ e ∈ elements, φ e i = j) :
    ∃ p : SetPart Unit, mergeAll (newPart [] (.finite (spots.map Int.ofNat))) (elements.flatMap fun e => spots.map fun i : Nat => ((i : Int), (φ e i : Int))) = .ok p ∧ WF p ∧
      p.domain = .finite (spots.map Int.ofNat) ∧ ∀ x y : Int, x ≠ y → (p.pairInSameBlock x y = true ↔ ∃ i ∈ spots, ∃ j ∈ spots, x = (i : Int) ∧ y = (j : Int) ∧ Q i j) := by
  let pairs : List (Nat × Nat) := elements.flatMap fun e => spots.map fun i => (i, φ e i)
  have hp : (elements.flatMap fun e => spots.map fun i : Nat => ((i : Int), (φ e i : Int))) = pairs.map fun p => ((p.1 : Int), (p.2 : Int)) := by
    simp only [pairs, List.map_flatMap, List.map_map]
    rfl
  have hmem : ∀ a b, (a, b) ∈ pairs ↔ ∃ e ∈ elements, a ∈ spots ∧ φ e a = b := by
    intro a b
    simp only [pairs, List.mem_flatMap, List.mem_map, Prod.mk.injEq]
    constructor
    · rintro ⟨e, he, i, hi, rfl, rfl⟩
      exact ⟨e, he, hi, rfl⟩
    · rintro ⟨e, he, hi, rfl⟩
      exact ⟨e, he, a, hi, rfl, rfl⟩
  rw [hp]
  obtain ⟨p, p1, p2, p3, p4⟩ := mergeAll_ok (L := Unit) (.finite (spots.map Int.ofNat)) (pairs.map fun p => ((p.1 : Int), (p.2 : Int))) (by
    rintro ab hab
    obtain ⟨⟨a, b⟩, h, rfl⟩ := List.mem_map.1 hab
    obtain ⟨e, he, ha, rfl⟩ := (hmem a b).1 h
    exact .inr ⟨List.mem_map_of_mem ha, List.mem_map_of_mem (h1 e he a ha).1⟩)
  refine ⟨p, p1, p2, p3, fun x y hxy => ?_⟩
  rw [eqv_iff_pair p2 hxy, p4, closure_nat]
  constructor
  · rintro (h | ⟨a, b, rfl, rfl, h⟩)
    · exact absurd h hxy
    · obtain ⟨ha, hb, h⟩ := (eqvGen_mono (Q := fun a b => a ∈ spots ∧ b ∈ spots ∧ Q a b) (by
        intro a b hab
        obtain ⟨e, he, ha, rfl⟩ := (hmem a b).1 hab
        exact ⟨ha, h1 e he a ha⟩) (fun a b h => ⟨h.2.1, h.1, hs _ _ h.2.2⟩) (fun a b c h h' => ⟨h.1, h'.2.1, ht _ _ _ h.2.2 h'.2.2⟩) h).resolve_left (by omega)
      exact ⟨a, ha, b, hb, rfl, rfl, h⟩
  · rintro ⟨i, hi, j, hj, rfl, rfl, h⟩
    obtain ⟨e, he, h⟩ := h2 i hi j hj h
    exact .inr ⟨i, j, rfl, rfl, .rel _ _ ((hmem i j).2 ⟨e, he, hi, h⟩)⟩

/-! ## blocks -/

open Classical in
theorem Labelling.exists_block {p : SetPart Boolf} {N : Nat} {lab : Nat → Boolf} (h : Labelling p N lab) {g : Boolf} (hg : ∃ i < N, lab i = g) :
    labelledBlock p g = .ok (((List.range N).filter fun i => decide (lab i = g)).map Int.ofNat) := by
  have : p.getBlockFromLabel g = some (((List.range N).filter fun i => decide (lab i = g)).map Int.ofNat) := by
    rw [h.block]
    refine ⟨?_, ?_, ?_⟩
    · obtain ⟨i, hi, hl⟩ := hg
      intro hc
      have : (i : Int) ∈ (((List.range N).filter fun i => decide (lab i = g)).map Int.ofNat) := List.mem_map.2 ⟨i, by simp [hi, hl], rfl⟩
      rw [hc] at this
      cases this
    · rw [List.pairwise_map]
      refine ((List.pairwise_lt_range).sublist List.filter_sublist).imp ?_
      intro a b hab
      simpa using hab
    · intro x
      simp only [List.mem_map, List.mem_filter, List.mem_range, decide_eq_true_eq]
      constructor
      · rintro ⟨i, ⟨hi, hl⟩, rfl⟩
        exact ⟨i, hi, rfl, hl⟩
      · rintro ⟨i, hi, rfl, hl⟩
        exact ⟨i, ⟨hi, hl⟩, rfl⟩
  unfold labelledBlock
  rw [this]

/-! ## loops -/

theorem symmetricSpotsLoop_eq {count : Nat} {φ : Nat → Nat → Nat} (spots elements : List Nat)
    (h : ∀ e ∈ elements, ∃ σ, SG.new { pair := some (((e / count : Nat) : Int), ((e % count : Nat) : Int)) } = .ok σ ∧ ∀ i : Nat, σ.applyOnNaturalNumber i = .ok (φ e i))
    (p : SetPart Unit) : symmetricSpotsLoop count spots (elements.map Int.ofNat) p = mergeAll (.ok p) (elements.flatMap fun e => spots.map fun i : Nat => ((i : Int), (φ e i : Int))) := by
  induction elements generalizing p with
  | nil => rfl
  | cons e elements ih =>
    obtain ⟨σ, h1, h2⟩ := h e (by simp)
    rw [List.map_cons, symmetricSpotsLoop, List.flatMap_cons, mergeAll_append, ← mergeSpots_eq h2]
    have : SG.new { pair := some (Int.ofNat e / (count : Int), Int.ofNat e % (count : Int)) } = .ok σ := h1
    simp only [bind, Except.bind, this]
    cases mergeSpots σ spots p with
    | error e => rfl
    | ok q => exact ih (fun e he => h e (by simp [he])) q

theorem permSymmetryLoop_eq {tt : Binv} {φ : Nat → Nat → Nat} (places elements : List Nat)
    (h : ∀ e ∈ elements, ∃ σ, SG.new { pair := some (0, (e : Int)) } = .ok σ ∧ ∀ i : Nat, σ.applyOnNaturalNumber i = .ok (φ e i))
    (ht : ∀ e ∈ elements, ∀ i ∈ places, ∃ b, tt.getItem (φ e i : Nat) = .ok b ∧ tt.getItem i = .ok b)
    (p : SetPart Unit) : permSymmetryLoop tt places (elements.map Int.ofNat) p = mergeAll (.ok p) (elements.flatMap fun e => places.map fun i : Nat => ((i : Int), (φ e i : Int))) := by
  induction elements generalizing p with
  | nil => rfl
  | cons e elements ih =>
    obtain ⟨σ, h1, h2⟩ := h e (by simp)
    rw [List.map_cons, permSymmetryLoop, List.flatMap_cons, mergeAll_append, ← mergePlaces_eq h2 _ (ht e (by simp))]
    have : SG.new { pair := some (0, Int.ofNat e) } = .ok σ := h1
    simp only [bind, Except.bind, this]
    cases mergePlaces tt σ places p with
    | error e => rfl
    | ok q => exact ih (fun e he => h e (by simp [he])) (fun e he => ht e (by simp [he])) q

/-! ## the labels of clan and faction -/

theorem lits_symmetry {g h : Boolf} {n : Nat} {r : Nat → Nat} {s : Nat → Bool} (hg : Canon g) (hn : ∀ x ∈ g.atomvals, x < n)
    (hl : Lits g (fun x => slit (s x) (r x : Nat)) h) (h1 : ∀ x < n, r x < n) (h2 : ∀ x < n, ∀ y < n, r x = r y → x = y) : h = g ↔ Symmetry g n r s := by
  constructor
  · rintro rfl
    exact ⟨h1, h2, fun key key' hk => hl.key hg.toSound fun x hx => by rw [hk x (hn x hx), lit_key_slit]⟩
  · intro hs
    apply hl.1.ext_key hg
    intro key
    obtain ⟨m, _, hm⟩ := digits_at (n := n) (A := List.range n) (r := id) (fun x hx => List.mem_range.1 hx) (fun _ _ _ _ h => h) fun y => (key.testBit (r y) ^^ s y)
    have hm' : ∀ y < n, m.testBit y = (key.testBit (r y) ^^ s y) := fun y hy => hm y (List.mem_range.2 hy)
    rw [hs.same key m hm', hl.key hg.toSound (key := key) (key' := m) fun x hx => by rw [hm' x (hn x hx), lit_key_slit]]

theorem lits_constant {g : Boolf} (hg : Canon g) (hc : g.isConstant = true) (w : Nat → Int) : Lits g w g :=
  ⟨hg, fun a => Boolf.eval_congr fun x hx => by rw [constant_atoms hg hc] at hx; cases hx⟩

theorem clan_labelling {g : Boolf} (hg : Reach g) (hv : g.valency = g.adicity) (ha : g.isConstant = true ∨ g.adicity ≤ 5) :
    ∃ E lab, g.ecClan 1 none false = .ok E ∧ E.dims.getLastD 1 = Nat.factorial g.adicity ∧ Labelling E.part (2 ^ g.adicity * Nat.factorial g.adicity) lab ∧
      ∀ m k t (r : Nat → Nat), m < 2 ^ g.adicity → (revColexPerms g.adicity)[k]? = some t → (∀ x < g.adicity, t[x]? = some (r x)) →
        Lits g (fun x => slit (m.testBit (r x)) (r x : Nat)) (lab (m * Nat.factorial g.adicity + k)) := by
  by_cases hc : g.isConstant = true
  · obtain ⟨E, h1, h2, _, h3⟩ := C96_constant 0 g hc none
    have h0 : g.adicity = 0 := by
      rw [← hv, hg.canon.val, constant_atoms hg.canon hc]; rfl
    refine ⟨E, fun _ => g, h1, by rw [h2, h0]; rfl, by rw [h0]; exact h3, fun m k t r _ _ _ => lits_constant hg.canon hc _⟩
  · have hc' : g.isConstant = false := by simpa using hc
    obtain ⟨q, lab, h1, h2, h3⟩ := ecClanRedundant_spec hg.obj.good hc' g.adicity
    refine ⟨_, lab, by rw [ecClan_redundant hc' (ha.resolve_left hc) (.inl ⟨rfl, rfl⟩) (.inl hv.symm), h1], rfl, h2, fun m k t r hm hk hr => ?_⟩
    obtain ⟨p, _, p2, _, _, hl⟩ := h3 m k t hm hk
    refine hl.congr fun x hx => ?_
    have hx' := hg.canon.toSound.adic_lt hx
    rw [Option.some.inj ((p2 x hx').symm.trans (hr x hx'))]

theorem faction_labelling {g : Boolf} (hg : Reach g) (hv : g.valency = g.adicity) (ha : g.isConstant = true ∨ g.adicity ≤ 5) :
    ∃ E lab, g.ecFaction none false = .ok E ∧ Labelling E.part (Nat.factorial g.adicity) lab ∧
      ∀ k t (r : Nat → Nat), (revColexPerms g.adicity)[k]? = some t → (∀ x < g.adicity, t[x]? = some (r x)) →
        Lits g (fun x => slit false (r x : Nat)) (lab k) := by
  by_cases hc : g.isConstant = true
  · obtain ⟨E, h1, _, _, h3⟩ := (C95_constant g hc none false).2 (.inl rfl)
    have h0 : g.adicity = 0 := by
      rw [← hv, hg.canon.val, constant_atoms hg.canon hc]; rfl
    exact ⟨E, fun _ => g, h1, by rw [h0]; exact h3, fun k t r _ _ => lits_constant hg.canon hc _⟩
  · have hc' : g.isConstant = false := by simpa using hc
    obtain ⟨q, lab, h1, h2, h3⟩ := ecFactionShort_spec hg.obj hc' g.adicity
    refine ⟨{ part := q, dims := [Nat.factorial g.adicity] }, lab, ?_, h2, fun k t r hk hr => ?_⟩
    · unfold Boolf.ecFaction
      rw [if_neg hc, if_pos (ha.resolve_left hc), (ecCase_spec g none false).2 _ (.inl ⟨rfl, rfl⟩)]
      simp only [bind, Except.bind]
      rw [if_pos (by simp [hv]), h1]
    · refine (h3 k t hk).congr fun x hx => ?_
      rw [hr x (hg.canon.toSound.adic_lt hx)]
      rfl

/-! ## the partitions -/

theorem mem_fullspots_root {g : Boolf} {n : Nat} (hg : Canon g) (hn : g.atomvals = List.range n) {i : Nat} : i ∈ g.fullspots ↔ i < 2 ^ n ∧ g.getItem i = .ok true := by
  have hlt : i ∈ g.fullspots → i < 2 ^ n := fun h => by
    have := fullspots_lt hg.toSound h
    rwa [hn, List.length_range] at this
  have key : i < 2 ^ n → (i ∈ g.fullspots ↔ g.getItem i = .ok true) := by
    intro hi
    have := spot_mem hg.toSound i.testBit
    rw [hn] at this
    have he : valB ((List.range n).map i.testBit) = i := by
      apply Nat.eq_of_testBit_eq
      intro x
      rw [testBit_valB_range]
      by_cases hx : x < n
      · simp [hx]
      · rw [decide_eq_false hx, Bool.false_and, Nat.testBit_lt_two_pow (lt_of_lt_of_le hi (Nat.pow_le_pow_right (by decide) (by omega)))]
    rw [he] at this
    rw [this, getItem_eq hg.toSound]
    simp
  exact ⟨fun h => ⟨hlt h, (key (hlt h)).1 h⟩, fun h => (key h.1).2 h.2⟩

theorem Moves.lt {n A : Nat} {r : Nat → Nat} {s : Nat → Bool} {i j : Nat} (h : Moves n r s i j) (hn : n ≤ A) (hi : i < 2 ^ A) : j < 2 ^ A := by
  apply Nat.lt_pow_two_of_testBit
  intro x hx
  rw [h.2 x (by omega)]
  exact Nat.testBit_lt_two_pow (lt_of_lt_of_le hi (Nat.pow_le_pow_right (by decide) hx))

/-- the pair of a place in the clan -/
theorem pair_of_element {n e : Nat} (he : e < 2 ^ n * Nat.factorial n) :
    e / Nat.factorial n < 2 ^ n ∧ ∃ t, (revColexPerms n)[e % Nat.factorial n]? = some t := by
  have a1 : e % Nat.factorial n < (revColexPerms n).length := by rw [length_revColexPerms]; exact Nat.mod_lt _ (Nat.factorial_pos n)
  exact ⟨Nat.div_lt_of_lt_mul (by rwa [Nat.mul_comm]), _, List.getElem?_eq_getElem a1⟩

/-- the pair of an arrangement with negations -/
theorem element_of_pair {n : Nat} {r : Nat → Nat} (s : Nat → Bool) (h1 : ∀ x < n, r x < n) (h2 : ∀ x < n, ∀ y < n, r x = r y → x = y) :
    ∃ m k t, m < 2 ^ n ∧ (revColexPerms n)[k]? = some t ∧ k < Nat.factorial n ∧ (∀ x < n, t[x]? = some (r x)) ∧ ∀ x < n, m.testBit (r x) = s x := by
  obtain ⟨t, s1, s2⟩ := extend_arrangement (n := n) (A := List.range n) (fun x hx => List.mem_range.1 hx) (fun x hx => h1 x (List.mem_range.1 hx))
    (fun x hx y hy => h2 x (List.mem_range.1 hx) y (List.mem_range.1 hy))
  obtain ⟨k, hk⟩ := List.mem_iff_getElem?.1 ((mem_revColexPerms n t).2 s1)
  obtain ⟨m, m1, m2⟩ := digits_at (n := n) (A := List.range n) (fun x hx => h1 x (List.mem_range.1 hx))
    (fun x hx y hy => h2 x (List.mem_range.1 hx) y (List.mem_range.1 hy)) s
  have hkf : k < Nat.factorial n := by rw [← length_revColexPerms n]; exact (List.getElem?_eq_some_iff.1 hk).1
  exact ⟨m, k, t, m1, hk, hkf, fun x hx => s2 x (List.mem_range.2 hx), fun x hx => m2 x (List.mem_range.2 hx)⟩

theorem symmetricSpots_spec {f : Boolf} (hf : Reach f) (ha : f.isConstant = true ∨ f.valency ≤ 5) :
    ∃ p, f.symmetricSpots = .ok p ∧ WF p ∧ p.domain = .finite (f.fullspots.map Int.ofNat) ∧
      ∀ x y : Int, x ≠ y → (p.pairInSameBlock x y = true ↔ ∃ i ∈ f.fullspots, ∃ j ∈ f.fullspots, x = (i : Int) ∧ y = (j : Int) ∧ MovedTo (rootOf f) f.valency true i j) := by
  classical
  obtain ⟨n, hn⟩ : ∃ n, n = f.valency := ⟨_, rfl⟩
  obtain ⟨g, hgd⟩ : ∃ g, g = rootOf f := ⟨_, rfl⟩
  have hg : Canon g := hgd ▸ rootOf_canon hf.canon
  have hga : g.atomvals = List.range n := by rw [hgd, hn]; rfl
  have hgn : g.adicity = n := by rw [hgd, hn]; rfl
  have hgs : f.fullspots = g.fullspots := by rw [hgd]; rfl
  obtain ⟨E, lab, e1, e2, e3, e4⟩ := clan_labelling hg.reach (by rw [hgd]; rfl) (by rw [hgd]; exact ha)
  rw [hgn] at e2 e3 e4
  rw [← hgd, ← hn, hgs]
  have hat : ∀ x ∈ g.atomvals, x < n := fun x hx => by rw [hga] at hx; exact List.mem_range.1 hx
  have hch : ∀ e, ∃ (φ : Nat → Nat) (r : Nat → Nat), e < 2 ^ n * Nat.factorial n →
      (∃ σ, SG.new { pair := some (((e / Nat.factorial n : Nat) : Int), ((e % Nat.factorial n : Nat) : Int)) } = .ok σ ∧ ∀ i : Nat, σ.applyOnNaturalNumber i = .ok (φ i)) ∧
      (∀ t, (revColexPerms n)[e % Nat.factorial n]? = some t → ∀ x < n, t[x]? = some (r x)) ∧ (lab e = g ↔ Symmetry g n r fun x => (e / Nat.factorial n).testBit (r x)) ∧
      ∀ i, Moves n r (fun x => (e / Nat.factorial n).testBit (r x)) i (φ i) := by
    intro e
    by_cases he : e < 2 ^ n * Nat.factorial n
    · obtain ⟨hm, t, ht⟩ := pair_of_element he
      obtain ⟨σ, φ, r, s1, s2, s3, s4, s5, s6⟩ := sigperm_number hm ht
      have hl := e4 _ _ _ r hm ht s3
      rw [Nat.div_add_mod'] at hl
      exact ⟨φ, r, fun _ => ⟨⟨σ, s1, s2⟩, fun t' ht' => by rw [ht] at ht'; cases ht'; exact s3, lits_symmetry hg hat hl s4 s5, s6⟩⟩
    · exact ⟨id, id, fun h => absurd h he⟩
  choose φ r hφ using hch
  have hconv : ∀ r' s', Symmetry g n r' s' → ∃ e < 2 ^ n * Nat.factorial n, lab e = g ∧ ∀ i j, Moves n r' s' i j → φ e i = j := by
    intro r' s' hs
    obtain ⟨m, k, t, m1, hk, hkf, ht, hm⟩ := element_of_pair s' hs.lt hs.inj
    have hlt : m * Nat.factorial n + k < 2 ^ n * Nat.factorial n := by
      calc m * Nat.factorial n + k < m * Nat.factorial n + Nat.factorial n := by omega
        _ = (m + 1) * Nat.factorial n := by rw [Nat.add_mul, Nat.one_mul]
        _ ≤ _ := Nat.mul_le_mul_right _ m1
    have hdiv : (m * Nat.factorial n + k) / Nat.factorial n = m := by
      rw [Nat.mul_comm, Nat.mul_add_div (Nat.factorial_pos n), Nat.div_eq_of_lt hkf, Nat.add_zero]
    have hmod : (m * Nat.factorial n + k) % Nat.factorial n = k := by
      rw [Nat.mul_comm, Nat.mul_add_mod, Nat.mod_eq_of_lt hkf]
    obtain ⟨_, h2, h3, h4⟩ := hφ _ hlt
    rw [hdiv] at h3 h4
    rw [hmod] at h2
    have hr : ∀ x < n, r (m * Nat.factorial n + k) x = r' x := fun x hx => Option.some.inj ((h2 t hk x hx).symm.trans (ht x hx))
    refine ⟨_, hlt, h3.2 ⟨fun x hx => by rw [hr x hx]; exact hs.lt x hx, fun x hx y hy => by rw [hr x hx, hr y hy]; exact hs.inj x hx y hy, fun key key' hk => hs.same key key' fun x hx => ?_⟩,
      fun i j hm' => Moves.unique hs.lt hs.inj hr (fun x hx => by rw [hr x hx]; exact hm x hx) hm' (h4 i)⟩
    rw [hk x hx, hr x hx, hm x hx]
  obtain ⟨p, p1, p2, p3, p4⟩ := merge_moves (Q := MovedTo g n true) (spots := g.fullspots) (elements := (List.range (2 ^ n * Nat.factorial n)).filter fun e => decide (lab e = g)) (φ := φ)
    (fun _ _ h => h.symm) (fun _ _ _ h h' => h.trans h')
    (by
      intro e he i hi
      simp only [List.mem_filter, List.mem_range, decide_eq_true_eq] at he
      obtain ⟨_, _, h3, h4⟩ := hφ e he.1
      have hmv : MovedTo g n true i (φ e i) := ⟨_, _, by simp, h3.1 he.2, h4 i⟩
      rw [mem_fullspots_root hg hga] at hi ⊢
      exact ⟨⟨(h4 i).lt le_rfl hi.1, hmv.getItem.trans hi.2⟩, hmv⟩)
    (by
      rintro i hi j hj ⟨r', s', _, hs, hm⟩
      obtain ⟨e, e1, e2, e3⟩ := hconv r' s' hs
      exact ⟨e, by simp [e1, e2], e3 i j hm⟩)
  refine ⟨p, ?_, p2, p3, p4⟩
  unfold Boolf.symmetricSpots
  rw [rootBoolf_eq hf.canon, ← hgd]
  simp only [bind, Except.bind]
  obtain ⟨e0, c1, c2, _⟩ := hconv id (fun _ => false) (Symmetry.refl hg.reach hgn.le)
  rw [e1]
  simp only [e3.exists_block ⟨e0, c1, c2⟩, e2]
  have h0 : (newPart [] (.finite (g.fullspots.map Int.ofNat)) : Except Err (SetPart Unit)) = .ok (setTrivial (.finite (g.fullspots.map Int.ofNat)) {}) := rfl
  rw [h0] at p1 ⊢
  simp only
  rw [symmetricSpotsLoop_eq (φ := φ) g.fullspots _ (by
    intro e he
    simp only [List.mem_filter, List.mem_range] at he
    exact (hφ e he.1).1)]
  exact p1

theorem permSymmetryPartition_spec {f : Boolf} (hf : Reach f) (ha : f.isConstant = true ∨ f.valency ≤ 5) :
    ∃ p, f.permSymmetryPartition = .ok p ∧ WF p ∧ p.domain = .finite ((List.range (2 ^ f.adicity)).map Int.ofNat) ∧
      ∀ x y : Int, x ≠ y → (p.pairInSameBlock x y = true ↔
        ∃ i ∈ List.range (2 ^ f.adicity), ∃ j ∈ List.range (2 ^ f.adicity), x = (i : Int) ∧ y = (j : Int) ∧ MovedTo (rootOf f) f.valency false i j) := by
  classical
  obtain ⟨n, hn⟩ : ∃ n, n = f.valency := ⟨_, rfl⟩
  obtain ⟨g, hgd⟩ : ∃ g, g = rootOf f := ⟨_, rfl⟩
  have hg : Canon g := hgd ▸ rootOf_canon hf.canon
  have hga : g.atomvals = List.range n := by rw [hgd, hn]; rfl
  have hgn : g.adicity = n := by rw [hgd, hn]; rfl
  have hnA : n ≤ f.adicity := by rw [hn, hf.canon.val]; exact length_le_adicity hf.canon
  obtain ⟨E, lab, e1, e3, e4⟩ := faction_labelling hg.reach (by rw [hgd]; rfl) (by rw [hgd]; exact ha)
  rw [hgn] at e3 e4
  rw [← hgd, ← hn]
  have hat : ∀ x ∈ g.atomvals, x < n := fun x hx => by rw [hga] at hx; exact List.mem_range.1 hx
  have hch : ∀ e, ∃ (φ : Nat → Nat) (r : Nat → Nat), e < Nat.factorial n →
      (∃ σ, SG.new { pair := some (0, (e : Int)) } = .ok σ ∧ ∀ i : Nat, σ.applyOnNaturalNumber i = .ok (φ i)) ∧
      (∀ t, (revColexPerms n)[e]? = some t → ∀ x < n, t[x]? = some (r x)) ∧ (lab e = g ↔ Symmetry g n r fun _ => false) ∧
      ∀ i, Moves n r (fun _ => false) i (φ i) := by
    intro e
    by_cases he : e < Nat.factorial n
    · have ht := List.getElem?_eq_getElem (l := revColexPerms n) (i := e) (by rw [length_revColexPerms]; exact he)
      obtain ⟨σ, φ, r, s1, s2, s3, s4, s5, s6⟩ := sigperm_number (m := 0) (Nat.two_pow_pos n) ht
      simp only [Nat.zero_testBit] at s6
      exact ⟨φ, r, fun _ => ⟨⟨σ, s1, s2⟩, fun t' ht' => by rw [ht] at ht'; cases ht'; exact s3, lits_symmetry hg hat (e4 _ _ r ht s3) s4 s5, s6⟩⟩
    · exact ⟨id, id, fun h => absurd h he⟩
  choose φ r hφ using hch
  have hconv : ∀ r', Symmetry g n r' (fun _ => false) → ∃ e < Nat.factorial n, lab e = g ∧ ∀ i j, Moves n r' (fun _ => false) i j → φ e i = j := by
    intro r' hs
    obtain ⟨_, k, t, _, hk, hkf, ht, _⟩ := element_of_pair (fun _ => false) hs.lt hs.inj
    obtain ⟨_, h2, h3, h4⟩ := hφ _ hkf
    have hr : ∀ x < n, r k x = r' x := fun x hx => Option.some.inj ((h2 t hk x hx).symm.trans (ht x hx))
    refine ⟨_, hkf, h3.2 ⟨fun x hx => by rw [hr x hx]; exact hs.lt x hx, fun x hx y hy => by rw [hr x hx, hr y hy]; exact hs.inj x hx y hy, fun key key' hk => hs.same key key' fun x hx => ?_⟩,
      fun i j hm' => Moves.unique hs.lt hs.inj hr (fun _ _ => rfl) hm' (h4 i)⟩
    rw [hk x hx, hr x hx]
  have hdir : ∀ e ∈ (List.range (Nat.factorial n)).filter (fun e => decide (lab e = g)), ∀ i ∈ List.range (2 ^ f.adicity),
      φ e i ∈ List.range (2 ^ f.adicity) ∧ MovedTo g n false i (φ e i) := by
    intro e he i hi
    simp only [List.mem_filter, List.mem_range, decide_eq_true_eq] at he
    obtain ⟨_, _, h3, h4⟩ := hφ e he.1
    rw [List.mem_range] at hi ⊢
    exact ⟨(h4 i).lt hnA hi, _, _, by simp, h3.1 he.2, h4 i⟩
  obtain ⟨p, p1, p2, p3, p4⟩ := merge_moves (Q := MovedTo g n false) (fun _ _ h => h.symm) (fun _ _ _ h h' => h.trans h') hdir
    (by
      rintro i hi j hj ⟨r', s', h0, hs, hm⟩
      obtain rfl : s' = fun _ => false := funext (h0 rfl)
      obtain ⟨e, e1, e2, e3⟩ := hconv r' hs
      exact ⟨e, by simp [e1, e2], e3 i j hm⟩)
  refine ⟨p, ?_, p2, p3, p4⟩
  unfold Boolf.permSymmetryPartition
  rw [rootBoolf_eq hf.canon, ← hgd]
  simp only [bind, Except.bind]
  obtain ⟨e0, c1, c2, _⟩ := hconv id (Symmetry.refl hg.reach hgn.le)
  rw [tt_arity_eq hg.toSound (by omega), e1]
  simp only [e3.exists_block ⟨e0, c1, c2⟩]
  have h0 : (newPart [] (.finite ((List.range (2 ^ f.adicity)).map Int.ofNat)) : Except Err (SetPart Unit)) = .ok (setTrivial (.finite ((List.range (2 ^ f.adicity)).map Int.ofNat)) {}) := rfl
  rw [h0] at p1 ⊢
  simp only
  have htt : ∀ i < 2 ^ f.adicity, (⟨(List.range (2 ^ f.adicity)).map fun i => g.eval i.testBit⟩ : Binv).getItem i = .ok (g.eval i.testBit) := by
    intro i hi
    rw [getItem_ok (by simpa [Binv.length] using hi)]
    congr 1
    exact (List.getElem_map _).trans (by rw [List.getElem_range])
  rw [permSymmetryLoop_eq (φ := φ) _ _ (by
    intro e he
    simp only [List.mem_filter, List.mem_range] at he
    exact (hφ e he.1).1) (by
    intro e he i hi
    obtain ⟨h1, h2⟩ := hdir e he i hi
    rw [List.mem_range] at h1 hi
    refine ⟨g.eval i.testBit, ?_, htt i hi⟩
    have := h2.getItem
    rw [getItem_eq hg.toSound, getItem_eq hg.toSound] at this
    rw [htt _ h1, Except.ok.inj this])]
  exact p1

/-- **C106.** `symmetric_spots` divides the true places of the root table: two of them are in the same block iff a rearrangement of the arguments with negations
that does not change the function moves one to the other.  (The number `x` of an argument is the place of its digit in the number of the place.) -/
theorem C106_symmetric_spots (f : Boolf) (hf : Reach f) (ha : f.isConstant = true ∨ f.valency ≤ 5) :
    ∃ g p, f.rootBoolf = .ok g ∧ f.symmetricSpots = .ok p ∧ p.domain = .finite (f.fullspots.map Int.ofNat) ∧
      ∀ x y : Int, x ≠ y → (p.pairInSameBlock x y = true ↔ ∃ i ∈ f.fullspots, ∃ j ∈ f.fullspots, x = (i : Int) ∧ y = (j : Int) ∧
        ∃ r s, Symmetry g f.valency r s ∧ ∀ x < f.valency, j.testBit (r x) = (i.testBit x ^^ s x)) := by
  obtain ⟨p, p1, _, p3, p4⟩ := symmetricSpots_spec hf ha
  refine ⟨rootOf f, p, rootBoolf_eq hf.canon, p1, p3, fun x y hxy => (p4 x y hxy).trans ?_⟩
  have hlt : ∀ i ∈ f.fullspots, ∀ x, f.valency ≤ x → i.testBit x = false := by
    intro i hi x hx
    have := fullspots_lt hf.canon.toSound hi
    rw [← hf.canon.val] at this
    exact Nat.testBit_lt_two_pow (lt_of_lt_of_le this (Nat.pow_le_pow_right (by decide) hx))
  constructor
  · rintro ⟨i, hi, j, hj, h1, h2, r, s, _, h3, h4⟩
    exact ⟨i, hi, j, hj, h1, h2, r, s, h3, h4.1⟩
  · rintro ⟨i, hi, j, hj, h1, h2, r, s, h3, h4⟩
    exact ⟨i, hi, j, hj, h1, h2, r, s, by simp, h3, h4, fun x hx => by rw [hlt i hi x hx, hlt j hj x hx]⟩

/-- **C106.** Functions of more than five arguments are rejected. -/
theorem C106_errors (f : Boolf) (hf : Reach f) (hc : f.isConstant = false) (hv : 5 < f.valency) : f.symmetricSpots = .error .argNotFeasible := by
  unfold Boolf.symmetricSpots
  rw [rootBoolf_eq hf.canon]
  simp only [bind, Except.bind]
  rw [(C96_errors 0 (rootOf f) hc none false).1 hv]
  rfl

/-- **C107.** `perm_symmetry_partition` divides the places of the table with all arguments up to the last one: two of them are in the same block iff a
rearrangement of the digits that does not change the root function moves one to the other, without changing the digits behind those of the root function. -/
theorem C107_perm_symmetry_partition (f : Boolf) (hf : Reach f) (ha : f.isConstant = true ∨ f.valency ≤ 5) :
    ∃ g p, f.rootBoolf = .ok g ∧ f.permSymmetryPartition = .ok p ∧ p.domain = .finite ((List.range (2 ^ f.adicity)).map Int.ofNat) ∧
      ∀ x y : Int, x ≠ y → (p.pairInSameBlock x y = true ↔ ∃ i j : Nat, i < 2 ^ f.adicity ∧ j < 2 ^ f.adicity ∧ x = i ∧ y = j ∧
        ∃ r, Symmetry g f.valency r (fun _ => false) ∧ (∀ x < f.valency, j.testBit (r x) = i.testBit x) ∧ ∀ x, f.valency ≤ x → j.testBit x = i.testBit x) := by
  obtain ⟨p, p1, _, p3, p4⟩ := permSymmetryPartition_spec hf ha
  refine ⟨rootOf f, p, rootBoolf_eq hf.canon, p1, p3, fun x y hxy => (p4 x y hxy).trans ?_⟩
  simp only [List.mem_range]
  constructor
  · rintro ⟨i, hi, j, hj, h1, h2, r, s, h0, h3, h4, h5⟩
    obtain rfl : s = fun _ => false := funext (h0 rfl)
    exact ⟨i, j, hi, hj, h1, h2, r, h3, fun x hx => by rw [h4 x hx]; simp, h5⟩
  · rintro ⟨i, j, hi, hj, h1, h2, r, h3, h4, h5⟩
    exact ⟨i, hi, j, hj, h1, h2, r, _, fun _ _ => rfl, h3, fun x hx => by rw [h4 x hx]; simp, h5⟩

/-- **C107.** Functions of more than five arguments are rejected. -/
theorem C107_errors (f : Boolf) (hf : Reach f) (hc : f.isConstant = false) (hv : 5 < f.valency) : f.permSymmetryPartition = .error .argNotFeasible := by
  have hnA : f.valency ≤ f.adicity := by rw [hf.canon.val]; exact length_le_adicity hf.canon
  unfold Boolf.permSymmetryPartition
  rw [rootBoolf_eq hf.canon]
  simp only [bind, Except.bind]
  rw [tt_arity_eq (rootOf_canon hf.canon).toSound hnA]
  have : (rootOf f).ecFaction none false = .error .argNotFeasible := by
    unfold Boolf.ecFaction
    rw [if_neg (show ¬ (rootOf f).isConstant = true by rw [show (rootOf f).isConstant = f.isConstant from rfl, hc]; decide),
      if_neg (show ¬ (rootOf f).adicity ≤ 5 by show ¬ f.valency ≤ 5; omega)]
  rw [this]
  rfl

/-- The disjunction of two: the places 1 and 2 are symmetric, the place 3 is not symmetric to them, although it is as true as they are. -/
example : ∃ f p q, newTT (.str "0111".toList) none = .ok f ∧ Reach f ∧ f.valency ≤ 5 ∧ f.fullspots = [1, 2, 3] ∧ f.symmetricSpots = .ok p ∧ p.pairInSameBlock 1 2 = true ∧
    p.pairInSameBlock 1 3 = false ∧ f.permSymmetryPartition = .ok q ∧ q.pairInSameBlock 1 2 = true ∧ q.pairInSameBlock 1 3 = false := by
  obtain ⟨_, e1, e2⟩ := newTT_explicit "0111".toList [false, true, true, true] [0, 1] 2 (by decide) (by decide) (by decide) (by intro n; simp; omega)
    (by decide) (by decide)
  have e1 := e1 (by decide)
  have hf := e2.reach
  obtain ⟨g, p, hg, p1, _, p3⟩ := C106_symmetric_spots _ hf (.inr (by decide))
  obtain ⟨g', q, hg', q1, _, q3⟩ := C107_perm_symmetry_partition _ hf (.inr (by decide))
  have hgg : g' = g := by rw [hg] at hg'; exact (Except.ok.inj hg').symm
  subst hgg
  obtain ⟨g, h1, _, _, _, _, _, h7, _⟩ := C81_root_boolf _ hf
  have hge : g' = g := by rw [hg] at h1; exact Except.ok.inj h1
  rw [h7 (by decide)] at hge
  have hd : ∀ k : Nat, g'.getItem k = .ok (k.testBit 0 || k.testBit 1) := by
    intro k
    rw [hge, getItem_eq e2.toSound]
    have : ∀ x y : Bool, List.getD [false, true, true, true] (valB [x, y]) false = (x || y) := by decide
    exact congrArg Except.ok (this (k.testBit 0) (k.testBit 1))
  have hsw : Symmetry g' 2 (fun x => 1 - x) fun _ => false := by
    refine ⟨fun x _ => by omega, fun x _ y _ h => by omega, fun key key' h => ?_⟩
    have h0 := h 0 (by decide)
    have h1 := h 1 (by decide)
    simp only [Nat.sub_zero, Nat.sub_self, Bool.xor_false] at h0 h1
    rw [hd, hd, h0, h1, Bool.or_comm]
  have hno : ∀ r s, Symmetry g' 2 r s → ¬ ∀ x < 2, (3 : Nat).testBit (r x) = ((1 : Nat).testBit x ^^ s x) := by
    intro r s hs h
    have hr : ∀ x < 2, (3 : Nat).testBit (r x) = true := by
      intro x hx
      have := hs.lt x hx
      have : r x = 0 ∨ r x = 1 := by omega
      rcases this with h | h <;> rw [h] <;> decide
    have h0 := h 0 (by decide)
    have h1 := h 1 (by decide)
    rw [hr 0 (by decide)] at h0
    rw [hr 1 (by decide)] at h1
    have := hs.same 0 2 (by
      intro x hx
      have : x = 0 ∨ x = 1 := by omega
      rcases this with rfl | rfl
      · rw [Nat.zero_testBit, Bool.false_xor]; revert h0; cases s 0 <;> decide
      · rw [Nat.zero_testBit, Bool.false_xor]; revert h1; cases s 1 <;> decide)
    rw [hd, hd] at this
    revert this
    decide
  refine ⟨_, p, q, e1, hf, by decide, by decide, p1, ?_, ?_, q1, ?_, ?_⟩
  · exact (p3 1 2 (by decide)).2 ⟨1, by decide, 2, by decide, rfl, rfl, _, _, hsw, by decide⟩
  · rw [← Bool.not_eq_true, p3 1 3 (by decide)]
    rintro ⟨i, _, j, _, hi, hj, r, s, h1, h2⟩
    obtain rfl : i = 1 := by omega
    obtain rfl : j = 3 := by omega
    exact hno r s h1 h2
  · exact (q3 1 2 (by decide)).2 ⟨1, 2, by decide, by decide, rfl, rfl, _, hsw, by decide, fun x hx => by
      rw [Nat.testBit_lt_two_pow (lt_of_lt_of_le (by decide) (Nat.pow_le_pow_right (by decide) hx)), Nat.testBit_lt_two_pow (lt_of_lt_of_le (by decide) (Nat.pow_le_pow_right (by decide) hx))]⟩
  · rw [← Bool.not_eq_true, q3 1 3 (by decide)]
    rintro ⟨i, j, _, _, hi, hj, r, h1, h2, _⟩
    obtain rfl : i = 1 := by omega
    obtain rfl : j = 3 := by omega
    exact hno r _ h1 fun x hx => by rw [h2 x hx]; simp

/-- The conjunction of six is rejected. -/
example : ∃ f, Reach f ∧ f.isConstant = false ∧ 5 < f.valency ∧ f.symmetricSpots = .error .argNotFeasible ∧ f.permSymmetryPartition = .error .argNotFeasible := by
  obtain ⟨f, f1, f2, _, f4, _⟩ := conjunction_exists 6 63 (by decide)
  have h5 : 5 < f.valency := by
    have : List.range 6 ⊆ f.atomvals := by
      intro x hx
      rw [List.mem_range] at hx
      by_contra hc
      have h1 := f4 63
      have h2 := f4 (63 ^^^ 2 ^ x)
      rw [getItem_eq f2.toSound] at h1 h2
      have h3 : f.eval (63 ^^^ 2 ^ x : Nat).testBit = f.eval (63 : Nat).testBit := by
        apply Boolf.eval_congr
        intro y hy
        have hxy : x ≠ y := fun h => hc (h ▸ hy)
        rw [Nat.testBit_xor, Nat.testBit_two_pow_of_ne hxy, Bool.xor_false]
      rw [h3, h1] at h2
      revert h2
      interval_cases x <;> decide
    have := (List.subperm_of_subset List.nodup_range this).length_le
    rw [List.length_range] at this
    rw [f2.val]
    omega
  have hc : f.isConstant = false := by
    rw [f2.const, decide_eq_false]
    intro h
    rw [f2.val, h] at h5
    cases h5
  exact ⟨f, f1, hc, h5, C106_errors f f1 hc h5, C107_errors f f1 hc h5⟩

end Verif.BF
