import Verif.Boolf.Props5
import Verif.Boolf.Props27
import Verif.Boolf.Props52

/-!
# C167: the parts of a function move with the function
-/

namespace Verif.BF
open Verif.Py Verif.BV Verif.P Verif.W Verif.SP Verif.SPC
open Verif.A hiding Mat

/-! ## places of the new function and places of the old one -/

theorem Replaced.down {f g : Boolf} (hf : Canon f) (hg : Canon g) {r : Nat → Nat} {s : Nat → Bool} (h : Replaced f g r s) (j : Nat) :
    ∃ i : Nat, g.getItem j = f.getItem i ∧ ∀ x ∈ f.atomvals, i.testBit x = (j.testBit (r x) ^^ s x) := by
  have hk : ∀ x ∈ f.atomvals, (valB ((List.range f.adicity).map fun x => j.testBit (r x) ^^ s x)).testBit x = (j.testBit (r x) ^^ s x) := fun x hx => by
    rw [testBit_valB_map, List.getElem?_range (hf.toSound.adic_lt hx)]
    rfl
  exact ⟨_, h.keys hf.toSound hg.toSound _ _ hk, hk⟩

theorem Replaced.up {f g : Boolf} (hf : Canon f) (hg : Canon g) {r : Nat → Nat} {s : Nat → Bool} (h : Replaced f g r s) (i : Nat) :
    ∃ j : Nat, g.getItem j = f.getItem i ∧ ∀ x ∈ f.atomvals, i.testBit x = (j.testBit (r x) ^^ s x) := by
  classical
  let b : Nat → Bool := fun y => if h : ∃ x ∈ f.atomvals, r x = y then i.testBit h.choose ^^ s h.choose else false
  have hb : ∀ x ∈ f.atomvals, b (r x) = (i.testBit x ^^ s x) := fun x hx => by
    have he : ∃ z ∈ f.atomvals, r z = r x := ⟨x, hx, rfl⟩
    have hc : he.choose = x := h.inj _ he.choose_spec.1 _ hx he.choose_spec.2
    simp only [b]
    rw [dif_pos he, hc]
  have hk : ∀ x ∈ f.atomvals, i.testBit x = ((valB ((List.range g.adicity).map b)).testBit (r x) ^^ s x) := fun x hx => by
    rw [testBit_valB_map, List.getElem?_range (hg.toSound.adic_lt ((h.mem hf hg _).2 ⟨x, hx, rfl⟩))]
    show _ = (b (r x) ^^ s x)
    rw [hb x hx]
    simp
  exact ⟨_, h.keys hf.toSound hg.toSound _ _ hk, hk⟩

/-- wherever the function is true, the two atoms differ by `c` -/
def Tied (f : Boolf) (x y : Nat) (c : Bool) : Prop := ∀ key : Nat, f.getItem key = .ok true → (key.testBit x ^^ key.testBit y) = c

theorem same_tied {f : Boolf} {x y : Nat} : Same f x y ↔ Tied f x y false :=
  forall_congr' fun key => imp_congr_right fun _ => by cases key.testBit x <;> cases key.testBit y <;> decide

theorem opposite_tied {f : Boolf} {x y : Nat} : Opposite f x y ↔ Tied f x y true :=
  forall_congr' fun key => imp_congr_right fun _ => by cases key.testBit x <;> cases key.testBit y <;> decide

theorem tied_or {f : Boolf} {x y : Nat} : (Same f x y ∨ Opposite f x y) ↔ ∃ c, Tied f x y c := by
  rw [same_tied, opposite_tied]
  exact ⟨fun h => h.elim (fun h => ⟨_, h⟩) fun h => ⟨_, h⟩, fun ⟨c, h⟩ => by cases c; exacts [Or.inl h, Or.inr h]⟩

theorem Tied.symm {f : Boolf} {x y : Nat} {c : Bool} (h : Tied f x y c) : Tied f y x c := fun key hk => by rw [Bool.xor_comm]; exact h key hk

theorem Tied.trans {f : Boolf} {x y z : Nat} {c d : Bool} (h : Tied f x y c) (h' : Tied f y z d) : Tied f x z (c ^^ d) := fun key hk => by
  rw [← h key hk, ← h' key hk]
  cases key.testBit x <;> cases key.testBit y <;> cases key.testBit z <;> rfl

/-- all true places of the function, at two of its atoms -/
theorem Replaced.places {f g : Boolf} (hf : Canon f) (hg : Canon g) {r : Nat → Nat} {s : Nat → Bool} (h : Replaced f g r s) {x y : Nat} (hx : x ∈ f.atomvals) (hy : y ∈ f.atomvals)
    (P : Bool → Bool → Prop) : (∃ key : Nat, g.getItem key = .ok true ∧ P (key.testBit (r x)) (key.testBit (r y))) ↔
      ∃ key : Nat, f.getItem key = .ok true ∧ P (key.testBit x ^^ s x) (key.testBit y ^^ s y) := by
  constructor
  · rintro ⟨j, j1, j2⟩
    obtain ⟨i, i1, i2⟩ := h.down hf hg j
    refine ⟨i, by rw [← i1, j1], ?_⟩
    rw [i2 x hx, i2 y hy]
    simpa using j2
  · rintro ⟨i, i1, i2⟩
    obtain ⟨j, j1, j2⟩ := h.up hf hg i
    refine ⟨j, by rw [j1, i1], ?_⟩
    rw [j2 x hx, j2 y hy] at i2
    simpa using i2

theorem Replaced.tied {f g : Boolf} (hf : Canon f) (hg : Canon g) {r : Nat → Nat} {s : Nat → Bool} (h : Replaced f g r s) {x y : Nat} (hx : x ∈ f.atomvals) (hy : y ∈ f.atomvals)
    {c : Bool} : Tied g (r x) (r y) (c ^^ s x ^^ s y) ↔ Tied f x y c := by
  have := h.places hf hg hx hy fun a b => ¬ (a ^^ b) = (c ^^ s x ^^ s y)
  unfold Tied
  rw [← not_iff_not]
  push Not
  rw [this]
  refine exists_congr fun key => and_congr_right fun _ => ?_
  cases key.testBit x <;> cases key.testBit y <;> cases s x <;> cases s y <;> cases c <;> decide

theorem Replaced.tied_or {f g : Boolf} (hf : Canon f) (hg : Canon g) {r : Nat → Nat} {s : Nat → Bool} (h : Replaced f g r s) {x y : Nat} (hx : x ∈ f.atomvals) (hy : y ∈ f.atomvals) :
    (∃ c, Tied g (r x) (r y) c) ↔ ∃ c, Tied f x y c := by
  constructor
  · rintro ⟨c, hc⟩
    refine ⟨c ^^ s x ^^ s y, (h.tied hf hg hx hy).1 ?_⟩
    cases c <;> cases s x <;> cases s y <;> exact hc
  · rintro ⟨c, hc⟩
    exact ⟨_, (h.tied hf hg hx hy).2 hc⟩

/-- the atom has the value `c` wherever the function is true -/
theorem Replaced.settledAt {f g : Boolf} (hf : Canon f) (hg : Canon g) {r : Nat → Nat} {s : Nat → Bool} (h : Replaced f g r s) {x : Nat} (hx : x ∈ f.atomvals) {c : Bool} :
    (∀ key : Nat, g.getItem key = .ok true → key.testBit (r x) = (c ^^ s x)) ↔ ∀ key : Nat, f.getItem key = .ok true → key.testBit x = c := by
  have := h.places hf hg hx hx fun a _ => ¬ a = (c ^^ s x)
  rw [← not_iff_not]
  push Not
  rw [this]
  refine exists_congr fun key => and_congr_right fun _ => ?_
  cases key.testBit x <;> cases s x <;> cases c <;> decide

theorem Replaced.settled {f g : Boolf} (hf : Canon f) (hg : Canon g) {r : Nat → Nat} {s : Nat → Bool} (h : Replaced f g r s) {x : Nat} (hx : x ∈ f.atomvals) :
    Settled g (r x) ↔ Settled f x := by
  constructor
  · rintro ⟨c, hc⟩
    refine ⟨c ^^ s x, (h.settledAt hf hg hx).1 ?_⟩
    cases c <;> cases s x <;> exact hc
  · rintro ⟨c, hc⟩
    exact ⟨_, (h.settledAt hf hg hx).2 hc⟩

theorem Tied.settled {f : Boolf} {x y : Nat} {c : Bool} (h : Tied f x y c) : Settled f x → Settled f y := by
  rintro ⟨d, hd⟩
  refine ⟨d ^^ c, fun key hk => ?_⟩
  rw [← h key hk, ← hd key hk]
  cases key.testBit x <;> cases key.testBit y <;> rfl

theorem ok_iff {a b : Bool} {x y : Except Err Bool} (hx : x = .ok a) (hy : y = .ok b) (h : x = .ok true ↔ y = .ok true) : x = y := by
  subst hx hy
  cases a <;> cases b <;> simp_all

/-- the values of two functions are equal if they are true at the same places -/
theorem Canon.ext_true {f g : Boolf} (hf : Canon f) (hg : Canon g) (he : ∀ key : Nat, f.getItem key = .ok true ↔ g.getItem key = .ok true) : f = g :=
  hf.ext_key hg fun key => ok_iff (getItem_eq hf.toSound key) (getItem_eq hg.toSound key) (he key)

/-! ## the parts -/

theorem bloat_true {f : Boolf} (hf : Reach f) : ∃ b, f.bloatBoolf = .ok b ∧ Reach b ∧
    ∀ key : Nat, b.getItem key = .ok true ↔ ∀ x ∈ f.atomvals, ∀ y ∈ f.atomvals, ∀ c, Tied f x y c → (key.testBit x ^^ key.testBit y) = c := by
  obtain ⟨b, b1, b2, b3⟩ := C83_bloat_boolf f hf
  refine ⟨b, b1, b2, fun key => (b3 key).trans ?_⟩
  refine forall₄_congr fun x _ y _ => ?_
  have e1 : (∀ key' : Nat, f.getItem key' = .ok true → key'.testBit x = key'.testBit y) ↔ Tied f x y false := same_tied
  have e2 : (∀ key' : Nat, f.getItem key' = .ok true → key'.testBit x ≠ key'.testBit y) ↔ Tied f x y true := opposite_tied
  rw [e1, e2]
  constructor
  · rintro ⟨h1, h2⟩ c hc
    cases c
    · rw [h1 hc, Bool.xor_self]
    · have := h2 hc
      revert this
      cases key.testBit x <;> cases key.testBit y <;> simp
  · intro h
    refine ⟨fun hc => ?_, fun hc => ?_⟩
    · have := h _ hc
      revert this
      cases key.testBit x <;> cases key.testBit y <;> simp
    · have := h _ hc
      revert this
      cases key.testBit x <;> cases key.testBit y <;> simp

/-- the digits for the atoms of `f` decide where `b` is true; then the atoms of `b` are some of those of `f` -/
theorem atoms_sub {f b : Boolf} (hb : Canon b)
    (h : ∀ key key' : Nat, (∀ x ∈ f.atomvals, key.testBit x = key'.testBit x) → b.getItem key = .ok true → b.getItem key' = .ok true) : ∀ x ∈ b.atomvals, x ∈ f.atomvals := by
  intro x hx
  by_contra hc
  obtain ⟨key, hk⟩ := (dep_key hb.toSound x).1 ((hb.mem_iff x).1 hx)
  have hsame : ∀ y ∈ f.atomvals, key.testBit y = (key ^^^ 2 ^ x).testBit y := fun y hy => by
    have hne : x ≠ y := fun e => hc (e ▸ hy)
    rw [Nat.testBit_xor, Nat.testBit_two_pow, decide_eq_false hne, Bool.xor_false]
  exact hk (ok_iff (getItem_eq hb.toSound _) (getItem_eq hb.toSound _) ⟨h _ _ hsame, h _ _ fun y hy => (hsame y hy).symm⟩)

theorem Replaced.part {f g b c : Boolf} (hf : Canon f) (hb : Canon b) (hc : Canon c) {r : Nat → Nat} {s : Nat → Bool} (h : Replaced f g r s)
    (hsub : ∀ x ∈ b.atomvals, x ∈ f.atomvals)
    (he : ∀ i j : Nat, (∀ x ∈ f.atomvals, i.testBit x = (j.testBit (r x) ^^ s x)) → (c.getItem j = .ok true ↔ b.getItem i = .ok true)) : Replaced b c r s := by
  refine Replaced.of_keys hb.toSound hc.toSound (fun x hx y hy => h.inj x (hsub x hx) y (hsub y hy)) fun key key' hk => ?_
  have hi : ∀ x ∈ f.atomvals, (valB ((List.range f.adicity).map fun x => key.testBit (r x) ^^ s x)).testBit x = (key.testBit (r x) ^^ s x) := fun x hx => by
    rw [testBit_valB_map, List.getElem?_range (hf.toSound.adic_lt hx)]
    rfl
  rw [ok_iff (getItem_eq hc.toSound _) (getItem_eq hb.toSound _) (he _ _ hi), getItem_eq hb.toSound, getItem_eq hb.toSound]
  exact congrArg Except.ok (Boolf.eval_congr fun x hx => by rw [hi x (hsub x hx), hk x hx])

theorem Replaced.bloat {f g : Boolf} (hf : Reach f) (hg : Reach g) {r : Nat → Nat} {s : Nat → Bool} (h : Replaced f g r s) :
    ∃ b c, f.bloatBoolf = .ok b ∧ g.bloatBoolf = .ok c ∧ Reach b ∧ Reach c ∧ (∀ x ∈ b.atomvals, x ∈ f.atomvals) ∧ Replaced b c r s := by
  obtain ⟨b, b1, b2, b3⟩ := bloat_true hf
  obtain ⟨c, c1, c2, c3⟩ := bloat_true hg
  have hsub : ∀ x ∈ b.atomvals, x ∈ f.atomvals := atoms_sub b2.canon fun key key' hk hb => by
    rw [b3] at hb ⊢
    intro x hx y hy d hd
    rw [← hk x hx, ← hk y hy]
    exact hb x hx y hy d hd
  refine ⟨b, c, b1, c1, b2, c2, hsub, h.part hf.canon b2.canon c2.canon hsub fun i j hij => ?_⟩
  rw [b3, c3]
  constructor
  · intro hall x hx y hy d hd
    have := hall _ ((h.mem hf.canon hg.canon _).2 ⟨x, hx, rfl⟩) _ ((h.mem hf.canon hg.canon _).2 ⟨y, hy, rfl⟩) _ ((h.tied hf.canon hg.canon hx hy).2 hd)
    rw [hij x hx, hij y hy]
    revert this
    cases j.testBit (r x) <;> cases j.testBit (r y) <;> cases s x <;> cases s y <;> cases d <;> simp
  · intro hall x' hx' y' hy' d hd
    obtain ⟨x, hx, rfl⟩ := (h.mem hf.canon hg.canon _).1 hx'
    obtain ⟨y, hy, rfl⟩ := (h.mem hf.canon hg.canon _).1 hy'
    have := hall x hx y hy (d ^^ s x ^^ s y) ((h.tied hf.canon hg.canon hx hy).1 (by
      cases d <;> cases s x <;> cases s y <;> exact hd))
    rw [hij x hx, hij y hy] at this
    revert this
    cases j.testBit (r x) <;> cases j.testBit (r y) <;> cases s x <;> cases s y <;> cases d <;> simp

theorem Replaced.blot {f g : Boolf} (hf : Reach f) (hg : Reach g) {r : Nat → Nat} {s : Nat → Bool} (h : Replaced f g r s) :
    ∃ b c, f.blotBoolf = .ok b ∧ g.blotBoolf = .ok c ∧ Reach b ∧ Reach c ∧ (∀ x ∈ b.atomvals, x ∈ f.atomvals) ∧ Replaced b c r s := by
  obtain ⟨b, b1, b2, b3⟩ := C83_blot_boolf f hf
  obtain ⟨c, c1, c2, c3⟩ := C83_blot_boolf g hg
  have hsub : ∀ x ∈ b.atomvals, x ∈ f.atomvals := atoms_sub b2.canon fun key key' hk hb => by
    rw [b3] at hb ⊢
    intro x hx d hd
    rw [← hk x hx]
    exact hb x hx d hd
  refine ⟨b, c, b1, c1, b2, c2, hsub, h.part hf.canon b2.canon c2.canon hsub fun i j hij => ?_⟩
  rw [b3, c3]
  constructor
  · intro hall x hx d hd
    rw [hij x hx, hall _ ((h.mem hf.canon hg.canon _).2 ⟨x, hx, rfl⟩) _ ((h.settledAt hf.canon hg.canon hx).2 hd)]
    cases d <;> cases s x <;> rfl
  · intro hall x' hx' d hd
    obtain ⟨x, hx, rfl⟩ := (h.mem hf.canon hg.canon _).1 hx'
    have := hall x hx (d ^^ s x) ((h.settledAt hf.canon hg.canon hx).1 (by cases d <;> cases s x <;> exact hd))
    rw [hij x hx] at this
    revert this
    cases j.testBit (r x) <;> cases s x <;> cases d <;> simp

theorem Replaced.blight {f g : Boolf} (hf : Reach f) (hg : Reach g) {r : Nat → Nat} {s : Nat → Bool} (h : Replaced f g r s) :
    ∃ b c, f.blightBoolf = .ok b ∧ g.blightBoolf = .ok c ∧ Reach b ∧ Reach c ∧ (∀ x ∈ b.atomvals, x ∈ f.atomvals) ∧ Replaced b c r s := by
  obtain ⟨b, u, v, b1, b2, b3, b4, b5, _⟩ := C83_blight_boolf f hf
  obtain ⟨c, u', v', c1, c2, c3, c4, c5, _⟩ := C83_blight_boolf g hg
  obtain ⟨p, p', p1, p2, p3, p4, p5, p6⟩ := h.bloat hf hg
  obtain ⟨q, q', q1, q2, q3, q4, q5, q6⟩ := h.blot hf hg
  rw [p1] at b2; rw [p2] at c2; rw [q1] at b3; rw [q2] at c3
  cases b2; cases c2; cases b3; cases c3
  have hsub : ∀ x ∈ b.atomvals, x ∈ f.atomvals := atoms_sub b4.canon fun key key' hk hb => by
    rw [b5] at hb ⊢
    rw [getItem_eq p3.canon.toSound, getItem_eq q3.canon.toSound] at hb ⊢
    rwa [Boolf.eval_congr (f := u) fun x hx => (hk x (p5 x hx)).symm, Boolf.eval_congr (f := v) fun x hx => (hk x (q5 x hx)).symm]
  refine ⟨b, c, b1, c1, b4, c4, hsub, h.part hf.canon b4.canon c4.canon hsub fun i j hij => ?_⟩
  rw [b5, c5, p6.keys p3.canon.toSound p4.canon.toSound j i fun x hx => hij x (p5 x hx), q6.keys q3.canon.toSound q4.canon.toSound j i fun x hx => hij x (q5 x hx)]

/-- the tests -/
theorem Replaced.tests {f g : Boolf} (hf : Reach f) (hg : Reach g) {r : Nat → Nat} {s : Nat → Bool} (h : Replaced f g r s) :
    g.isBloatless = f.isBloatless ∧ g.isBlotless = f.isBlotless ∧ g.isBlightless = f.isBlightless := by
  obtain ⟨b, c, b1, b2, b3, b4, b5⟩ := C83_bloatless_blotless f hf
  obtain ⟨b', c', c1, c2, c3, c4, c5⟩ := C83_bloatless_blotless g hg
  have e1 : b' = b := by
    rw [Bool.eq_iff_iff, b4, c4]
    constructor
    · intro hall x hx y hy hne
      obtain ⟨h1, h2⟩ := hall _ ((h.mem hf.canon hg.canon _).2 ⟨x, hx, rfl⟩) _ ((h.mem hf.canon hg.canon _).2 ⟨y, hy, rfl⟩) fun e => hne (h.inj x hx y hy e)
      rw [h.places hf.canon hg.canon hx hy fun a b => a = b] at h1
      rw [h.places hf.canon hg.canon hx hy fun a b => a ≠ b] at h2
      cases hs : (s x ^^ s y)
      · refine ⟨h1.imp fun key => And.imp_right ?_, h2.imp fun key => And.imp_right ?_⟩ <;>
          · revert hs
            cases key.testBit x <;> cases key.testBit y <;> cases s x <;> cases s y <;> simp
      · refine ⟨h2.imp fun key => And.imp_right ?_, h1.imp fun key => And.imp_right ?_⟩ <;>
          · revert hs
            cases key.testBit x <;> cases key.testBit y <;> cases s x <;> cases s y <;> simp
    · intro hall x' hx' y' hy' hne
      obtain ⟨x, hx, rfl⟩ := (h.mem hf.canon hg.canon _).1 hx'
      obtain ⟨y, hy, rfl⟩ := (h.mem hf.canon hg.canon _).1 hy'
      obtain ⟨h1, h2⟩ := hall x hx y hy fun e => hne (by rw [e])
      rw [h.places hf.canon hg.canon hx hy fun a b => a = b, h.places hf.canon hg.canon hx hy fun a b => a ≠ b]
      cases hs : (s x ^^ s y)
      · refine ⟨h1.imp fun key => And.imp_right ?_, h2.imp fun key => And.imp_right ?_⟩ <;>
          · revert hs
            cases key.testBit x <;> cases key.testBit y <;> cases s x <;> cases s y <;> simp
      · refine ⟨h2.imp fun key => And.imp_right ?_, h1.imp fun key => And.imp_right ?_⟩ <;>
          · revert hs
            cases key.testBit x <;> cases key.testBit y <;> cases s x <;> cases s y <;> simp
  have e2 : c' = c := by
    rw [Bool.eq_iff_iff, b5, c5]
    have hx : ∀ x ∈ f.atomvals, (((∃ key : Nat, g.getItem key = .ok true ∧ key.testBit (r x) = true) ∧ ∃ key : Nat, g.getItem key = .ok true ∧ key.testBit (r x) = false) ↔
        (∃ key : Nat, f.getItem key = .ok true ∧ key.testBit x = true) ∧ ∃ key : Nat, f.getItem key = .ok true ∧ key.testBit x = false) := fun x hx => by
      rw [h.places hf.canon hg.canon hx hx fun a _ => a = true, h.places hf.canon hg.canon hx hx fun a _ => a = false]
      cases s x
      · simp only [Bool.xor_false]
      · simp only [Bool.xor_true, Bool.not_eq_true', Bool.not_eq_false']
        exact and_comm
    constructor
    · exact fun hall x h1 => (hx x h1).1 (hall _ ((h.mem hf.canon hg.canon _).2 ⟨x, h1, rfl⟩))
    · intro hall x' hx'
      obtain ⟨x, h1, rfl⟩ := (h.mem hf.canon hg.canon _).1 hx'
      exact (hx x h1).2 (hall x h1)
  rw [b1, b2, b3, c1, c2, c3, e1, e2]
  exact ⟨rfl, rfl, rfl⟩

theorem Replaced.gapless {f g : Boolf} (hf : Reach f) (hg : Reach g) {r : Nat → Nat} {s : Nat → Bool} (h : Replaced f g r s) (hb : f.isBlightless = .ok true) :
    ∃ b c, f.gaplessBoolf = .ok b ∧ g.gaplessBoolf = .ok c ∧ Reach b ∧ Reach c ∧ (∀ x ∈ b.atomvals, x ∈ f.atomvals) ∧ Replaced b c r s := by
  obtain ⟨b, b1, b2, b3⟩ := (C87_gapless_boolf f hf).2 hb
  obtain ⟨c, c1, c2, c3⟩ := (C87_gapless_boolf g hg).2 (by rw [(h.tests hf hg).2.2, hb])
  have hsub := gapless_sub hf.canon hb b1
  refine ⟨b, c, b1, c1, b2, c2, hsub, h.part hf.canon b2.canon c2.canon hsub fun i j hij => ?_⟩
  rw [b3, c3]
  have hxy : ∀ x ∈ f.atomvals, ∀ y ∈ f.atomvals, ((∃ key : Nat, g.getItem key = .ok true ∧ key.testBit (r x) = j.testBit (r x) ∧ key.testBit (r y) = j.testBit (r y)) ↔
      ∃ key : Nat, f.getItem key = .ok true ∧ key.testBit x = i.testBit x ∧ key.testBit y = i.testBit y) := fun x hx y hy => by
    rw [h.places hf.canon hg.canon hx hy fun a b => a = j.testBit (r x) ∧ b = j.testBit (r y), hij x hx, hij y hy]
    refine exists_congr fun key => and_congr_right fun _ => ?_
    cases key.testBit x <;> cases key.testBit y <;> cases s x <;> cases s y <;> cases j.testBit (r x) <;> cases j.testBit (r y) <;> decide
  constructor
  · exact fun hall x hx y hy hne => (hxy x hx y hy).1 (hall _ ((h.mem hf.canon hg.canon _).2 ⟨x, hx, rfl⟩) _ ((h.mem hf.canon hg.canon _).2 ⟨y, hy, rfl⟩) fun e => hne (h.inj x hx y hy e))
  · intro hall x' hx' y' hy' hne
    obtain ⟨x, hx, rfl⟩ := (h.mem hf.canon hg.canon _).1 hx'
    obtain ⟨y, hy, rfl⟩ := (h.mem hf.canon hg.canon _).1 hy'
    exact (hxy x hx y hy).2 (hall x hx y hy fun e => hne (by rw [e]))

/-! ## representative atoms -/

/-- the representative atoms: one of each set of tied atoms -/
structure RepsOf (f : Boolf) (X : List Nat) : Prop where
  nodup : X.Nodup
  sub : ∀ x ∈ X, x ∈ f.atomvals
  rep : ∀ x ∈ f.atomvals, ∃ z ∈ X, (∃ c, Tied f x z c) ∧ ∀ z' ∈ X, (∃ c, Tied f x z' c) → z' = z
  splits : f.numberOfDistinctSplits = .ok X.length
  bloatless : ∃ k, f.bloatlessBoolf = .ok k ∧ Reach k ∧ (∀ x ∈ k.atomvals, x ∈ X ∧ True) ∧
    ∀ key : Nat, k.getItem key = .ok true ↔ ∃ key' : Nat, f.getItem key' = .ok true ∧ ∀ x ∈ X, True → key'.testBit x = key.testBit x
  blightless : ∃ k, f.blightlessBoolf = .ok k ∧ Reach k ∧ (∀ x ∈ k.atomvals, x ∈ X ∧ ¬ Settled f x) ∧
    ∀ key : Nat, k.getItem key = .ok true ↔ ∃ key' : Nat, f.getItem key' = .ok true ∧ ∀ x ∈ X, ¬ Settled f x → key'.testBit x = key.testBit x

theorem repsOf {f : Boolf} (hf : Reach f) : ∃ X, RepsOf f X := by
  obtain ⟨l, l1, l2, l3, l4, _⟩ := C84_representatives f hf
  obtain ⟨m, _, _, m1, _, m2, _⟩ := C84_blocks f hf
  obtain ⟨k, n, k1, k2, k3, k4, k5⟩ := C84_bloatless_boolf f hf
  obtain ⟨k', n', j1, j2, j3, j4, j5⟩ := C85_blightless_boolf f hf
  have hinj : ∀ {a b : List Nat}, a.map Int.ofNat = b.map Int.ofNat → a = b := fun h => List.map_injective_iff.2 Int.ofNat_injective h
  rw [l1] at m1 k3 j3
  obtain rfl := hinj (Except.ok.inj m1)
  obtain rfl := hinj (Except.ok.inj k3)
  obtain rfl := hinj (Except.ok.inj j3)
  have hval : ∀ r ∈ l, f.atomvals[r]? = some (f.atomvals.getD r 0) := fun r hr => by
    have := l3 r hr
    rw [hf.canon.val] at this
    rw [List.getD_eq_getElem?_getD, List.getElem?_eq_getElem this]
    rfl
  have hmem : ∀ x, x ∈ l.map (fun r => f.atomvals.getD r 0) ↔ ∃ r ∈ l, f.atomvals[r]? = some x := fun x => by
    rw [List.mem_map]
    exact exists_congr fun r => and_congr_right fun hr => by rw [hval r hr, Option.some_inj]
  have hall : ∀ (P : Nat → Prop) (key key' : Nat), (∀ r ∈ l, ∀ x : Nat, f.atomvals[r]? = some x → P x → key'.testBit x = key.testBit x) ↔
      ∀ x ∈ l.map (fun r => f.atomvals.getD r 0), P x → key'.testBit x = key.testBit x := fun P key key' => by
    constructor
    · intro h x hx
      obtain ⟨r, hr, hx⟩ := (hmem x).1 hx
      exact h r hr x hx
    · exact fun h r hr x hx => h x ((hmem x).2 ⟨r, hr, hx⟩)
  refine ⟨l.map fun r => f.atomvals.getD r 0, ?_, fun x hx => ?_, fun x hx => ?_, ?_, ⟨k, k1, k2, fun x hx => ⟨(hmem x).2 (k4 x hx), trivial⟩, fun key => ?_⟩,
    ⟨k', j1, j2, fun x hx => ⟨(hmem x).2 (j4 x hx).2, (j4 x hx).1⟩, fun key => ?_⟩⟩
  · refine List.Nodup.map_on (fun a ha b hb he => ?_) (l2.imp fun h => Nat.ne_of_lt h)
    have h1 := hval a ha
    have h2 := hval b hb
    rw [he] at h1
    exact (List.getElem?_inj (getElem?_some_lt h1) hf.canon.toSound.nodup).1 (h1.trans h2.symm)
  · obtain ⟨r, hr, hx⟩ := (hmem x).1 hx
    exact List.mem_of_getElem? hx
  · obtain ⟨a, ha⟩ := List.getElem?_of_mem hx
    obtain ⟨r, hr, z, hz, ht, hu⟩ := l4 a x ha
    refine ⟨z, (hmem z).2 ⟨r, hr, hz⟩, BF.tied_or.1 ht, fun z' hz' ht' => ?_⟩
    obtain ⟨r', hr', hz'⟩ := (hmem z').1 hz'
    rw [hu r' hr' z' hz' (BF.tied_or.2 ht'), hz] at hz'
    exact (Option.some.inj hz').symm
  · rw [m2, List.length_map]
  · rw [k5]
    exact exists_congr fun key' => and_congr_right fun _ => by
      rw [← hall fun _ => True]
      simp only [true_imp_iff]
  · rw [j5]
    exact exists_congr fun key' => and_congr_right fun _ => hall (fun x => ¬ Settled f x) key key'

/-- the representatives of the old function and those of the new one -/
theorem Replaced.reps {f g : Boolf} (hf : Canon f) (hg : Canon g) {r : Nat → Nat} {s : Nat → Bool} (h : Replaced f g r s) {X Y : List Nat} (hX : RepsOf f X) (hY : RepsOf g Y) :
    ∃ (p : Nat → Nat) (d : Nat → Bool), (∀ x ∈ X, p x ∈ Y ∧ Tied g (r x) (p x) (d x)) ∧ (∀ x ∈ X, ∀ y ∈ X, p x = p y → x = y) ∧ ∀ y ∈ Y, ∃ x ∈ X, p x = y := by
  have hex : ∀ x, ∃ z, x ∈ X → z ∈ Y ∧ (∃ c, Tied g (r x) z c) ∧ ∀ z' ∈ Y, (∃ c, Tied g (r x) z' c) → z' = z := fun x => by
    by_cases hx : x ∈ X
    · obtain ⟨z, z1, z2, z3⟩ := hY.rep (r x) ((h.mem hf hg _).2 ⟨x, hX.sub x hx, rfl⟩)
      exact ⟨z, fun _ => ⟨z1, z2, z3⟩⟩
    · exact ⟨0, fun h => absurd h hx⟩
  choose p hp using hex
  have hd : ∀ x, ∃ c, x ∈ X → Tied g (r x) (p x) c := fun x => by
    by_cases hx : x ∈ X
    · obtain ⟨c, hc⟩ := (hp x hx).2.1
      exact ⟨c, fun _ => hc⟩
    · exact ⟨false, fun h => absurd h hx⟩
  choose d hd using hd
  refine ⟨p, d, fun x hx => ⟨(hp x hx).1, hd x hx⟩, fun x hx y hy he => ?_, fun y hy => ?_⟩
  · have h1 : Tied g (r x) (r y) (d x ^^ d y) := (hd x hx).trans (he ▸ (hd y hy).symm)
    have h2 := (h.tied_or hf hg (hX.sub x hx) (hX.sub y hy)).1 ⟨_, h1⟩
    obtain ⟨z, _, _, hz⟩ := hX.rep x (hX.sub x hx)
    rw [hz x hx ⟨false, fun key _ => Bool.xor_self _⟩, hz y hy h2]
  · obtain ⟨w, hw, rfl⟩ := (h.mem hf hg _).1 (hY.sub y hy)
    obtain ⟨x, hx, ht, _⟩ := hX.rep w hw
    obtain ⟨c, hc⟩ := (h.tied_or hf hg hw (hX.sub x hx)).2 ht
    exact ⟨x, hx, ((hp x hx).2.2 _ hy ⟨c, hc.symm⟩).symm⟩

theorem Replaced.projected {f g b c : Boolf} (hf : Canon f) (hg : Canon g) {r : Nat → Nat} {s : Nat → Bool} (h : Replaced f g r s) {X Y : List Nat} (hX : RepsOf f X) (hY : RepsOf g Y)
    (P Q : Nat → Prop) (hPQ : ∀ x ∈ X, ∀ y e, Tied g (r x) y e → (Q y ↔ P x)) (hb : Canon b) (hc : Canon c)
    (hbs : ∀ x ∈ b.atomvals, x ∈ X ∧ P x) (hb' : ∀ key : Nat, b.getItem key = .ok true ↔ ∃ key' : Nat, f.getItem key' = .ok true ∧ ∀ x ∈ X, P x → key'.testBit x = key.testBit x)
    (hc' : ∀ key : Nat, c.getItem key = .ok true ↔ ∃ key' : Nat, g.getItem key' = .ok true ∧ ∀ x ∈ Y, Q x → key'.testBit x = key.testBit x) :
    SignedRenamed g.adicity b c := by
  obtain ⟨p, d, p1, p2, p3⟩ := h.reps hf hg hX hY
  refine ⟨p, fun x => s x ^^ d x, fun x hx => hg.toSound.adic_lt (hY.sub _ (p1 x (hbs x hx).1).1), fun x hx y hy => p2 x (hbs x hx).1 y (hbs y hy).1, fun key key' hk => ?_⟩
  have hi : ∀ x ∈ X, (valB ((List.range f.adicity).map fun x => key.testBit (p x) ^^ (s x ^^ d x))).testBit x = (key.testBit (p x) ^^ (s x ^^ d x)) := fun x hx => by
    rw [testBit_valB_map, List.getElem?_range (hf.toSound.adic_lt (hX.sub x hx))]
    rfl
  have hbb : b.getItem key' = b.getItem (valB ((List.range f.adicity).map fun x => key.testBit (p x) ^^ (s x ^^ d x))) := by
    rw [getItem_eq hb.toSound, getItem_eq hb.toSound]
    exact congrArg Except.ok (Boolf.eval_congr fun x hx => by rw [hi x (hbs x hx).1, hk x hx])
  rw [hbb]
  refine ok_iff (getItem_eq hc.toSound _) (getItem_eq hb.toSound _) ?_
  rw [hb', hc']
  constructor
  · rintro ⟨j, j1, j2⟩
    obtain ⟨i, i1, i2⟩ := h.down hf hg j
    refine ⟨i, by rw [← i1, j1], fun x hx hP => ?_⟩
    obtain ⟨q1, q2⟩ := p1 x hx
    have e1 := j2 _ q1 ((hPQ x hx _ _ q2).2 hP)
    have e2 := q2 j j1
    rw [hi x hx, i2 x (hX.sub x hx), ← e1, ← e2]
    cases j.testBit (r x) <;> cases j.testBit (p x) <;> cases s x <;> rfl
  · rintro ⟨i, i1, i2⟩
    obtain ⟨j, j1, j2⟩ := h.up hf hg i
    rw [i1] at j1
    refine ⟨j, j1, fun y hy hQ => ?_⟩
    obtain ⟨x, hx, rfl⟩ := p3 y hy
    obtain ⟨q1, q2⟩ := p1 x hx
    have e1 := i2 x hx ((hPQ x hx _ _ q2).1 hQ)
    have e2 := q2 j j1
    rw [hi x hx, j2 x (hX.sub x hx), ← e2] at e1
    revert e1
    cases j.testBit (r x) <;> cases j.testBit (p x) <;> cases s x <;> cases key.testBit (p x) <;> simp

theorem Replaced.reduced {f g : Boolf} (hf : Reach f) (hg : Reach g) {r : Nat → Nat} {s : Nat → Bool} (h : Replaced f g r s) :
    (∃ n, f.numberOfDistinctSplits = .ok n ∧ g.numberOfDistinctSplits = .ok n) ∧
    (∃ b c, f.bloatlessBoolf = .ok b ∧ g.bloatlessBoolf = .ok c ∧ Reach b ∧ Reach c ∧ SignedRenamed g.adicity b c) ∧
    ∃ b c, f.blightlessBoolf = .ok b ∧ g.blightlessBoolf = .ok c ∧ Reach b ∧ Reach c ∧ SignedRenamed g.adicity b c := by
  obtain ⟨X, hX⟩ := repsOf hf
  obtain ⟨Y, hY⟩ := repsOf hg
  refine ⟨⟨X.length, hX.splits, ?_⟩, ?_, ?_⟩
  · rw [hY.splits]
    obtain ⟨p, d, p1, p2, p3⟩ := h.reps hf.canon hg.canon hX hY
    have : Y.Perm (X.map p) := by
      rw [List.perm_ext_iff_of_nodup hY.nodup (hX.nodup.map_on p2)]
      intro y
      rw [List.mem_map]
      exact ⟨p3 y, fun ⟨x, hx, he⟩ => he ▸ (p1 x hx).1⟩
    rw [this.length_eq, List.length_map]
  · obtain ⟨b, b1, b2, b3, b4⟩ := hX.bloatless
    obtain ⟨c, c1, c2, c3, c4⟩ := hY.bloatless
    exact ⟨b, c, b1, c1, b2, c2, h.projected hf.canon hg.canon hX hY (fun _ => True) (fun _ => True) (fun _ _ _ _ _ => Iff.rfl) b2.canon c2.canon b3 b4 c4⟩
  · obtain ⟨b, b1, b2, b3, b4⟩ := hX.blightless
    obtain ⟨c, c1, c2, c3, c4⟩ := hY.blightless
    refine ⟨b, c, b1, c1, b2, c2, h.projected hf.canon hg.canon hX hY (fun x => ¬ Settled f x) (fun y => ¬ Settled g y) (fun x hx y e ht => ?_) b2.canon c2.canon b3 b4 c4⟩
    rw [not_iff_not, ← h.settled hf.canon hg.canon (hX.sub x hx)]
    exact ⟨ht.symm.settled, ht.settled⟩

/-! ## bundles -/

theorem Replaced.crossing {f g : Boolf} (hf : Canon f) (hg : Canon g) {r : Nat → Nat} {s : Nat → Bool} (h : Replaced f g r s) {i j : Nat} (hc : Crossing f i j) :
    Crossing g (g.atomvals.idxOf (r (f.atomvals.getD i 0))) (g.atomvals.idxOf (r (f.atomvals.getD j 0))) := by
  obtain ⟨x, y, hx, hy, hne, hall⟩ := hc
  have ex : f.atomvals.getD i 0 = x := by rw [List.getD_eq_getElem?_getD, hx]; rfl
  have ey : f.atomvals.getD j 0 = y := by rw [List.getD_eq_getElem?_getD, hy]; rfl
  have mx := List.mem_of_getElem? hx
  have my := List.mem_of_getElem? hy
  have hidx : ∀ z ∈ f.atomvals, g.atomvals[g.atomvals.idxOf (r z)]? = some (r z) := fun z hz =>
    List.getElem?_idxOf ((h.mem hf hg _).2 ⟨z, hz, rfl⟩)
  rw [ex, ey]
  refine ⟨r x, r y, hidx x mx, hidx y my, fun e => hne (h.inj x mx y my e), fun p q => ?_⟩
  rw [h.places hf hg mx my fun a b => a = p ∧ b = q]
  obtain ⟨key, k1, k2, k3⟩ := hall (p ^^ s x) (q ^^ s y)
  refine ⟨key, k1, ?_⟩
  rw [k2, k3]
  simp

theorem Replaced.linked {f g : Boolf} (hf : Canon f) (hg : Canon g) {r : Nat → Nat} {s : Nat → Bool} (h : Replaced f g r s) {i j : Nat} (hc : Relation.EqvGen (Crossing f) i j) :
    Relation.EqvGen (Crossing g) (g.atomvals.idxOf (r (f.atomvals.getD i 0))) (g.atomvals.idxOf (r (f.atomvals.getD j 0))) := by
  induction hc with
  | rel i j hc => exact .rel _ _ (h.crossing hf hg hc)
  | refl i => exact .refl _
  | symm i j _ ih => exact .symm _ _ ih
  | trans i j k _ _ ih1 ih2 => exact .trans _ _ _ ih1 ih2

/-- each position of `g` comes from one of `f` -/
theorem Replaced.position {f g : Boolf} (hf : Canon f) (hg : Canon g) {r : Nat → Nat} {s : Nat → Bool} (h : Replaced f g r s) {e : Nat} (he : e < g.atomvals.length) :
    ∃ i < f.atomvals.length, g.atomvals.idxOf (r (f.atomvals.getD i 0)) = e := by
  obtain ⟨x, hx, hr⟩ := (h.mem hf hg _).1 (List.getElem_mem he)
  obtain ⟨i, hi, rfl⟩ := List.getElem_of_mem hx
  refine ⟨i, hi, ?_⟩
  rw [List.getD_eq_getElem?_getD, List.getElem?_eq_getElem hi, Option.getD_some, hr, hg.toSound.nodup.idxOf_getElem]

theorem Replaced.bundles_le {f g : Boolf} (hf : Reach f) (hg : Reach g) {r : Nat → Nat} {s : Nat → Bool} (h : Replaced f g r s) {l m : List (List Int)}
    (hl : ∀ B, B ∈ l ↔ ∃ e < f.atomvals.length, B.Pairwise (· < ·) ∧ ∀ x, x ∈ B ↔ ∃ k < f.atomvals.length, x = ((k : Nat) : Int) ∧ Relation.EqvGen (Crossing f) e k)
    (hm : ∀ B, B ∈ m ↔ ∃ e < g.atomvals.length, B.Pairwise (· < ·) ∧ ∀ x, x ∈ B ↔ ∃ k < g.atomvals.length, x = ((k : Nat) : Int) ∧ Relation.EqvGen (Crossing g) e k)
    (hmn : m.Nodup) : m.length ≤ l.length := by
  classical
  -- for each bundle of `g` a position of `f`, that is moved into it
  have hex : ∀ B, ∃ (i : Nat), B ∈ m → i < f.atomvals.length ∧ B.Pairwise (· < ·) ∧
      ∀ x, x ∈ B ↔ ∃ k < g.atomvals.length, x = ((k : Nat) : Int) ∧ Relation.EqvGen (Crossing g) (g.atomvals.idxOf (r (f.atomvals.getD i 0))) k := fun B => by
    by_cases hB : B ∈ m
    · obtain ⟨e, he, h1, h2⟩ := (hm B).1 hB
      obtain ⟨i, hi, hie⟩ := h.position hf.canon hg.canon he
      exact ⟨i, fun _ => ⟨hi, h1, by rw [hie]; exact h2⟩⟩
    · exact ⟨0, fun h => absurd h hB⟩
  choose q hq using hex
  let F : Nat → List Int := fun i => ((List.range f.atomvals.length).filter fun k => Relation.EqvGen (Crossing f) i k).map Int.ofNat
  have hF : ∀ i x, x ∈ F i ↔ ∃ k < f.atomvals.length, x = ((k : Nat) : Int) ∧ Relation.EqvGen (Crossing f) i k := fun i x => by
    simp only [F, List.mem_map, List.mem_filter, List.mem_range, decide_eq_true_eq]
    exact ⟨fun ⟨k, ⟨h1, h2⟩, h3⟩ => ⟨k, h1, h3.symm, h2⟩, fun ⟨k, h1, h2, h3⟩ => ⟨k, ⟨h1, h3⟩, h2.symm⟩⟩
  have hasc : ∀ i, (F i).Pairwise (· < ·) := fun i => by
    rw [List.pairwise_map]
    exact (List.pairwise_lt_range.filter _).imp fun h => Int.ofNat_lt.2 h
  have hnd : (m.map fun B => F (q B)).Nodup := by
    refine hmn.map_on fun B hB C hC he => ?_
    obtain ⟨b1, b2, b3⟩ := hq B hB
    obtain ⟨c1, c2, c3⟩ := hq C hC
    obtain ⟨k, k1, k2, k3⟩ := (hF (q B) _).1 ((congrArg (fun L => ((q C : Nat) : Int) ∈ L) he).mpr ((hF (q C) _).2 ⟨q C, c1, rfl, .refl _⟩))
    obtain rfl : q C = k := by omega
    have hlink := h.linked hf.canon hg.canon k3
    refine int_asc_ext b2 c2 fun x => ?_
    rw [b3, c3]
    exact exists_congr fun k => and_congr_right fun _ => and_congr_right fun _ => ⟨fun h => (hlink.symm).trans _ _ _ h, fun h => hlink.trans _ _ _ h⟩
  have hle : (m.map fun B => F (q B)).Subperm l := List.subperm_of_subset hnd fun B hB => by
    obtain ⟨C, hC, rfl⟩ := List.mem_map.1 hB
    exact (hl _).2 ⟨q C, (hq C hC).1, hasc _, hF _⟩
  have := hle.length_le
  rwa [List.length_map] at this

theorem bundles_number {f g : Boolf} (hf : Reach f) (hg : Reach g) {r : Nat → Nat} {s : Nat → Bool} (h : Replaced f g r s) :
    g.bundles.map List.length = f.bundles.map List.length ∧ g.isBundle = f.isBundle := by
  have ht := (h.tests hf hg).1
  obtain ⟨b, _, hb, _⟩ := C83_bloatless_blotless f hf
  have hlen : g.bundles.map List.length = f.bundles.map List.length := by
    cases b
    · rw [((C88_bundles f hf).1 hb).1, ((C88_bundles g hg).1 (by rw [ht, hb])).1]
    · obtain ⟨l, _, l1, _, l2, l3, _⟩ := (C88_bundles f hf).2 hb
      obtain ⟨m, _, m1, _, m2, m3, _⟩ := (C88_bundles g hg).2 (by rw [ht, hb])
      obtain ⟨r', h', _⟩ := h.symm hf.canon hg.canon
      rw [l1, m1]
      show Except.ok m.length = Except.ok l.length
      rw [Nat.le_antisymm (h.bundles_le hf hg l3 m3 (m2.imp fun h => ne_of_lt h)) (h'.bundles_le hg hf m3 l3 (l2.imp fun h => ne_of_lt h))]
  refine ⟨hlen, ?_⟩
  unfold Boolf.isBundle
  cases hl : f.bundles <;> cases hm : g.bundles <;> rw [hl, hm] at hlen <;> simp_all [Except.map, bind, Except.bind]

/-! ## C167 -/

/-- a signed permutation replaces the atoms, and negates some of them -/
theorem action_replaced {f : Boolf} (hf : Reach f) {s : SG.SigPerm} (hs : SG.Finite s) :
    ∃ g, f.applySigperm (.sigperm s) = .ok g ∧ Reach g ∧ Replaced f g (fun x => (logicAbs (s.value x)).toNat) fun x => decide (s.value x < 0) := by
  obtain ⟨g, g1, _, g3, g4⟩ := action hf.obj hs
  exact ⟨g, g1, (g3 hf.canon).reach, fun x _ y _ he => value_inj hs he, g4⟩

/-- **C167.** A signed permutation commutes with `bloat_boolf`, `blot_boolf`, `blight_boolf` and `gapless_boolf`: the part of the moved function is the moved
part of the function.  (The first three are always computed.  `gapless_boolf` raises the same exception for both functions, or for none.) -/
theorem C167_signed_permutation (f : Boolf) (hf : Reach f) (s : SG.SigPerm) (hs : SG.Finite s) :
    ∃ g, f.applySigperm (.sigperm s) = .ok g ∧ Reach g ∧
      (∃ b c, f.bloatBoolf = .ok b ∧ g.bloatBoolf = .ok c ∧ b.applySigperm (.sigperm s) = .ok c) ∧
      (∃ b c, f.blotBoolf = .ok b ∧ g.blotBoolf = .ok c ∧ b.applySigperm (.sigperm s) = .ok c) ∧
      (∃ b c, f.blightBoolf = .ok b ∧ g.blightBoolf = .ok c ∧ b.applySigperm (.sigperm s) = .ok c) ∧
      ((f.gaplessBoolf = .error .boolfNotBlightless ∧ g.gaplessBoolf = .error .boolfNotBlightless) ∨
        ∃ b c, f.gaplessBoolf = .ok b ∧ g.gaplessBoolf = .ok c ∧ b.applySigperm (.sigperm s) = .ok c) := by
  obtain ⟨g, g1, g2, h⟩ := action_replaced hf hs
  have key : ∀ {b c : Boolf}, Reach b → Reach c → Replaced b c (fun x => (logicAbs (s.value x)).toNat) (fun x => decide (s.value x < 0)) →
      b.applySigperm (.sigperm s) = .ok c := fun {b c} hb hc h' => by
    obtain ⟨d, d1, d2, d3⟩ := action_replaced hb hs
    rw [d1, d2.canon.ext hc.canon fun a => by rw [d3.eval, h'.eval]]
  refine ⟨g, g1, g2, ?_, ?_, ?_, ?_⟩
  · obtain ⟨b, c, b1, c1, b2, c2, _, h'⟩ := h.bloat hf g2
    exact ⟨b, c, b1, c1, key b2 c2 h'⟩
  · obtain ⟨b, c, b1, c1, b2, c2, _, h'⟩ := h.blot hf g2
    exact ⟨b, c, b1, c1, key b2 c2 h'⟩
  · obtain ⟨b, c, b1, c1, b2, c2, _, h'⟩ := h.blight hf g2
    exact ⟨b, c, b1, c1, key b2 c2 h'⟩
  · obtain ⟨u, v, _, _, huv, _⟩ := C83_bloatless_blotless f hf
    cases hu : (u && v)
    · rw [hu] at huv
      exact Or.inl ⟨(C87_gapless_boolf f hf).1 huv, (C87_gapless_boolf g g2).1 (by rw [(h.tests hf g2).2.2, huv])⟩
    · rw [hu] at huv
      obtain ⟨b, c, b1, c1, b2, c2, _, h'⟩ := h.gapless hf g2 huv
      exact Or.inr ⟨b, c, b1, c1, key b2 c2 h'⟩

/-- **C167.** All members of a clan are bloatless, blotless, blightless, or none is.  They have the same number of distinct splits and the same number of bundles
(or `bundles` raises an exception for all), and all or none are bundles. -/
theorem C167_clan (f g : Boolf) (hf : Reach f) (hg : Reach g) (n : Nat) (h : SignedRenamed n f g) :
    g.isBloatless = f.isBloatless ∧ g.isBlotless = f.isBlotless ∧ g.isBlightless = f.isBlightless ∧
      (∃ m, f.numberOfDistinctSplits = .ok m ∧ g.numberOfDistinctSplits = .ok m) ∧
      g.bundles.map List.length = f.bundles.map List.length ∧ g.isBundle = f.isBundle := by
  obtain ⟨r, s, _, h⟩ := h.replaced hf hg
  obtain ⟨h1, h2, h3⟩ := h.tests hf hg
  exact ⟨h1, h2, h3, (h.reduced hf hg).1, bundles_number hf hg h⟩

/-- **C167.** The bloatless functions of the members of a clan belong to one clan, and so do their blightless functions.  (They do not arise from each other by the
same replacement of atoms, because the choice of the representatives depends on the order of the atoms.) -/
theorem C167_clan_reduced (f g : Boolf) (hf : Reach f) (hg : Reach g) (n : Nat) (h : SignedRenamed n f g) :
    (∃ b c, f.bloatlessBoolf = .ok b ∧ g.bloatlessBoolf = .ok c ∧ Reach b ∧ Reach c ∧ SignedRenamed n b c) ∧
    (∃ b c, f.blightlessBoolf = .ok b ∧ g.blightlessBoolf = .ok c ∧ Reach b ∧ Reach c ∧ SignedRenamed n b c) := by
  have hn := h.adicity hf hg
  obtain ⟨r, s, _, h⟩ := h.replaced hf hg
  obtain ⟨_, ⟨b, c, h1, h2, h3, h4, h5⟩, b', c', k1, k2, k3, k4, k5⟩ := h.reduced hf hg
  exact ⟨⟨b, c, h1, h2, h3, h4, h5.mono hn⟩, b', c', k1, k2, k3, k4, k5.mono hn⟩

/-- **C167.** If two functions have the same `clan_minrep`, then their bloatless functions have the same `clan_minrep`, and so do their blightless functions. -/
theorem C167_same_minrep (order : List Nat → List Nat) (f g : Boolf) (hf : Reach f) (hg : Reach g) (ho : Ascending order f.adicity) (ho' : Ascending order g.adicity)
    (h : f.clanMinrep order = g.clanMinrep order) :
    (∃ b c, f.bloatlessBoolf = .ok b ∧ g.bloatlessBoolf = .ok c ∧ b.clanMinrep order = c.clanMinrep order) ∧
    (∃ b c, f.blightlessBoolf = .ok b ∧ g.blightlessBoolf = .ok c ∧ b.clanMinrep order = c.clanMinrep order) := by
  obtain ⟨n, hn⟩ := (C101_same_clan order f g hf hg ho ho').1 h
  have h1 := hn.symm hf hg
  have h2 := h1.symm hg hf
  obtain ⟨⟨b, c, b1, c1, b2, c2, b3⟩, p, q, p1, q1, p2, q2, p3⟩ := C167_clan_reduced f g hf hg _ h2
  obtain ⟨⟨c', b', c1', b1', _, _, b3'⟩, q', p', q1', p1', _, _, p3'⟩ := C167_clan_reduced g f hg hf _ h1
  rw [b1] at b1'; rw [c1] at c1'; rw [p1] at p1'; rw [q1] at q1'
  cases b1'; cases c1'; cases p1'; cases q1'
  have hasc : ∀ {m n}, m ≤ n → Ascending order n → Ascending order m := fun hmn ho l h1 h2 => ho l h1 fun x hx => Nat.lt_of_lt_of_le (h2 x hx) hmn
  exact ⟨⟨b, c, b1, c1, (C101_same_clan order b c b2 c2 (hasc (b3'.adicity c2 b2) ho) (hasc (b3.adicity b2 c2) ho')).2 ⟨_, b3⟩⟩,
    p, q, p1, q1, (C101_same_clan order p q p2 q2 (hasc (p3'.adicity q2 p2) ho) (hasc (p3.adicity p2 q2) ho')).2 ⟨_, p3⟩⟩

/-- **C167.** The bloatless function need not be moved by the signed permutation: `f = (a0 ↔ a1) ∧ (a0 ∨ a2)` is not changed by the transposition of atoms 0 and 1, but its
bloatless function `a0 ∨ a2` is. -/
theorem C167_bloatless_not_moved : ∃ f s b c, newTT (.str "00011001".toList) = .ok f ∧ Reach f ∧ SG.new { sequence := some [1, 0] } = .ok s ∧ SG.Finite s ∧
    f.applySigperm (.sigperm s) = .ok f ∧ f.bloatlessBoolf = .ok b ∧ f.blightlessBoolf = .ok b ∧ b.applySigperm (.sigperm s) = .ok c ∧ c ≠ b := by
  obtain ⟨_, e1, e2⟩ := newTT_explicit "00011001".toList [false, false, false, true, true, false, false, true] [0, 1, 2] 3
    (by decide) (by decide) (by decide) (by intro n; simp; omega) (by decide) (by decide)
  obtain ⟨s, s1, s2, _⟩ := (SG.C31_of_sequence [1, 0]).1 (by decide)
  have hs : s = _ := Except.ok.inj (s1.symm.trans (by rfl))
  refine ⟨_, s, { root := { vector := [false, true, true, true] }, atomvals := [0, 2], valency := 2, adicity := 3 }, { root := { vector := [false, true, true, true] }, atomvals := [1, 2], valency := 2, adicity := 3 }, e1 (by decide), e2.reach, s1, s2, ?_, by decide +kernel, by decide +kernel, ?_, by decide⟩
  · rw [hs]; decide +kernel
  · rw [hs]; decide +kernel

/-- a function with a bloat and a blot, and a signed permutation that negates and moves atoms -/
example : ∃ f s, newTT (.str "0000100100001000".toList) = .ok f ∧ Reach f ∧ f.isBloatless = .ok false ∧ f.isBlotless = .ok false ∧
    SG.new { sequence := some [-3, 0, 1, -4] } = .ok s ∧ SG.Finite s ∧ s.value 0 = -3 ∧ s.value 3 = -4 := by
  obtain ⟨_, e1, e2⟩ := newTT_explicit "0000100100001000".toList
    [false, false, false, false, true, false, false, true, false, false, false, false, true, false, false, false] [0, 1, 2, 3] 4
    (by decide) (by decide) (by decide) (by intro n; simp; omega) (by decide) (by decide)
  obtain ⟨s, s1, s2, s3⟩ := (SG.C31_of_sequence [-3, 0, 1, -4]).1 (by decide)
  exact ⟨_, s, e1 (by decide), e2.reach, by decide +kernel, by decide +kernel, s1, s2, s3 0, s3 3⟩

/-- two functions of one clan: the second arises from the first by negating atom 0 -/
example : ∃ f g n, newTT (.str "10011101".toList) = .ok f ∧ newTT (.str "01101110".toList) = .ok g ∧ Reach f ∧ Reach g ∧ f ≠ g ∧ Ascending id f.adicity ∧ Ascending id g.adicity ∧
    f.clanMinrep id = g.clanMinrep id ∧ SignedRenamed n f g ∧ f.isBundle = .ok true ∧ g.isBundle = .ok true := by
  obtain ⟨_, e1, e2⟩ := newTT_explicit "10011101".toList [true, false, false, true, true, true, false, true] [0, 1, 2] 3
    (by decide) (by decide) (by decide) (by intro n; simp; omega) (by decide) (by decide)
  obtain ⟨_, e3, e4⟩ := newTT_explicit "01101110".toList [false, true, true, false, true, true, true, false] [0, 1, 2] 3
    (by decide) (by decide) (by decide) (by intro n; simp; omega) (by decide) (by decide)
  have hs := C101_same_clan id _ _ e2.reach e4.reach (fun _ _ _ => rfl) fun _ _ _ => rfl
  obtain ⟨n, hn⟩ := hs.1 (by decide +kernel)
  exact ⟨_, _, n, e1 (by decide), e3 (by decide), e2.reach, e4.reach, by decide, fun _ _ _ => rfl, fun _ _ _ => rfl, hs.2 ⟨n, hn⟩, hn, by decide +kernel, by decide +kernel⟩

end Verif.BF
