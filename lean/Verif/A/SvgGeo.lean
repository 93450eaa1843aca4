import Verif.A.Svg
import Mathlib.Tactic.Ring
import Mathlib.Tactic.NormNum
import Mathlib.Tactic.Linarith
import Mathlib.Data.Finset.Prod
import Mathlib.Data.Fintype.Prod
import Mathlib.Algebra.BigOperators.Group.Finset.Basic
import Mathlib.Order.Interval.Finset.Defs
import Mathlib.Data.Int.Interval

/-! # Boundaries of sets of squares

Auxiliary definitions for the proof about `bin2svg`.  A set of unit squares is given by a function `F`.  Its boundary is traced with the set on
the right side. -/

namespace Verif.Svg

/-- The directions up, right, down, left -/
inductive Dir
  | U | R | D | L
deriving DecidableEq, Repr

instance : Fintype Dir := ⟨{.U, .R, .D, .L}, fun d => by cases d <;> decide⟩

def Dir.vec : Dir → Pos
  | .U => (-1, 0)
  | .R => (0, 1)
  | .D => (1, 0)
  | .L => (0, -1)

def Dir.right : Dir → Dir
  | .U => .R
  | .R => .D
  | .D => .L
  | .L => .U

def Dir.left : Dir → Dir
  | .U => .L
  | .R => .U
  | .D => .R
  | .L => .D

/-- The point reached after `t` unit steps -/
def walk (v : Pos) (d : Dir) (t : Nat) : Pos := (v.1 + t * d.vec.1, v.2 + t * d.vec.2)

variable (F : Int → Int → Bool)

/-- Does the boundary leave the point between four squares (northwest, northeast, southwest, southeast) in a direction? -/
def outQ (nw ne sw se : Bool) : Dir → Bool
  | .U => ne && !nw
  | .R => se && !ne
  | .D => sw && !se
  | .L => nw && !sw

/-- Does the boundary arrive at the point between four squares in a direction? -/
def inQ (nw ne sw se : Bool) : Dir → Bool
  | .U => se && !sw
  | .R => sw && !nw
  | .D => nw && !ne
  | .L => ne && !se

def pieceQ (nw ne sw se : Bool) (d : Dir) : Bool := inQ nw ne sw se d && !outQ nw ne sw se d

def turnQ (nw ne sw se : Bool) (d : Dir) : Dir := if outQ nw ne sw se d.right then d.right else d.left

/-- The boundary leaves the point in this direction. -/
def outE (v : Pos) : Dir → Bool := outQ (F (v.1 - 1) (v.2 - 1)) (F (v.1 - 1) v.2) (F v.1 (v.2 - 1)) (F v.1 v.2)

/-- The boundary arrives at the point in this direction. -/
def inE (v : Pos) : Dir → Bool := inQ (F (v.1 - 1) (v.2 - 1)) (F (v.1 - 1) v.2) (F v.1 (v.2 - 1)) (F v.1 v.2)

/-- A corner is a point with the direction in which it is reached. -/
abbrev Piece := Pos × Dir

def isPiece (p : Piece) : Bool := inE F p.1 p.2 && !outE F p.1 p.2

/-- The direction in which the boundary goes on -/
def turn (p : Piece) : Dir := if outE F p.1 p.2.right then p.2.right else p.2.left

variable {F}

theorem walk_zero (v : Pos) (d : Dir) : walk v d 0 = v := by simp [walk]

theorem walk_add (v : Pos) (d : Dir) (s t : Nat) : walk (walk v d s) d t = walk v d (s + t) := by
  unfold walk
  ext <;> push_cast <;> ring

theorem walk_inj (v : Pos) (d : Dir) {s t : Nat} (h : walk v d s = walk v d t) : s = t := by
  unfold walk at h
  rw [Prod.mk.injEq] at h
  obtain ⟨h1, h2⟩ := h
  cases d <;> simp [Dir.vec] at h1 h2 <;> omega

theorem outE_inE (v : Pos) (d : Dir) : outE F v d = inE F (walk v d 1) d := by
  cases d <;> simp [outE, inE, outQ, inQ, walk, Dir.vec, sub_eq_add_neg]

theorem turn_spec {p : Piece} (h : isPiece F p = true) : outE F p.1 (turn F p) = true ∧ inE F p.1 (turn F p) = false := by
  have : ∀ nw ne sw se d, pieceQ nw ne sw se d = true →
      outQ nw ne sw se (turnQ nw ne sw se d) = true ∧ inQ nw ne sw se (turnQ nw ne sw se d) = false := by decide
  exact this _ _ _ _ _ h

theorem turn_inj {v : Pos} {d e : Dir} (h : isPiece F (v, d) = true) (h' : isPiece F (v, e) = true) (ht : turn F (v, d) = turn F (v, e)) :
    d = e := by
  have : ∀ nw ne sw se d e, pieceQ nw ne sw se d = true → pieceQ nw ne sw se e = true → turnQ nw ne sw se d = turnQ nw ne sw se e → d = e := by
    decide
  exact this _ _ _ _ _ _ h h' ht

theorem piece_of_out {v : Pos} {e : Dir} (h : outE F v e = true) (h' : inE F v e = false) :
    ∃ d, isPiece F (v, d) = true ∧ turn F (v, d) = e := by
  have : ∀ nw ne sw se e, outQ nw ne sw se e = true → inQ nw ne sw se e = false →
      ∃ d, pieceQ nw ne sw se d = true ∧ turnQ nw ne sw se d = e := by decide
  exact this _ _ _ _ _ h h'

theorem straight_no_piece {v : Pos} {e : Dir} (h : inE F v e = true) (h' : outE F v e = true) (d : Dir) : isPiece F (v, d) = false := by
  have : ∀ nw ne sw se e d, inQ nw ne sw se e = true → outQ nw ne sw se e = true → pieceQ nw ne sw se d = false := by decide
  exact this _ _ _ _ _ _ h h'

variable (F) in
/-- The corner after a corner: in the direction in which the boundary goes on, after a straight line -/
def Next (p q : Piece) (t : Nat) : Prop :=
  1 ≤ t ∧ q = (walk p.1 (turn F p) t, turn F p) ∧ isPiece F q = true ∧
    ∀ s, 1 ≤ s → s < t → inE F (walk p.1 (turn F p) s) (turn F p) = true ∧ outE F (walk p.1 (turn F p) s) (turn F p) = true

variable {H W : Nat}

variable (F H W) in
/-- The set of squares is a part of a rectangle. -/
def Within : Prop := ∀ m n : Int, F m n = true → 0 ≤ m ∧ m < H ∧ 0 ≤ n ∧ n < W

theorem inE_range (hF : Within F H W) {v : Pos} {d : Dir} (h : inE F v d = true) : 0 ≤ v.1 ∧ v.1 ≤ H ∧ 0 ≤ v.2 ∧ v.2 ≤ W := by
  cases d <;> simp only [inE, inQ, Bool.and_eq_true] at h <;> have := hF _ _ h.1 <;> omega

theorem outE_range (hF : Within F H W) {v : Pos} {d : Dir} (h : outE F v d = true) : 0 ≤ v.1 ∧ v.1 ≤ H ∧ 0 ≤ v.2 ∧ v.2 ≤ W := by
  cases d <;> simp only [outE, outQ, Bool.and_eq_true] at h <;> have := hF _ _ h.1 <;> omega

theorem isPiece_range (hF : Within F H W) {p : Piece} (h : isPiece F p = true) : 0 ≤ p.1.1 ∧ p.1.1 ≤ H ∧ 0 ≤ p.1.2 ∧ p.1.2 ≤ W := by
  simp only [isPiece, Bool.and_eq_true] at h
  exact inE_range hF h.1

/-- A straight line comes to an end. -/
theorem run_end (hF : Within F H W) {v : Pos} {e : Dir} (h : outE F v e = true) :
    ∃ t, 1 ≤ t ∧ t ≤ H + W + 1 ∧ inE F (walk v e t) e = true ∧ outE F (walk v e t) e = false ∧
      ∀ s, 1 ≤ s → s < t → inE F (walk v e s) e = true ∧ outE F (walk v e s) e = true := by
  have hex : ∃ t, outE F (walk v e t) e = false := by
    by_contra hcon
    have hall : ∀ t, outE F (walk v e t) e = true := fun t => by
      cases hb : outE F (walk v e t) e
      · exact absurd ⟨t, hb⟩ hcon
      · rfl
    have h0 := outE_range hF (hall 0)
    have h1 := outE_range hF (hall (H + W + 1))
    unfold walk at h0 h1
    cases e <;> simp [Dir.vec] at h0 h1 <;> omega
  classical
  have hspec := Nat.find_spec hex
  have hmin := fun s (hs : s < Nat.find hex) => Nat.find_min hex hs
  generalize Nat.find hex = t at hspec hmin
  have hmin' : ∀ s < t, outE F (walk v e s) e = true := fun s hs => by simpa using hmin s hs
  have ht : 1 ≤ t := by
    rcases Nat.eq_zero_or_pos t with rfl | h0
    · rw [walk_zero, h] at hspec; cases hspec
    · exact h0
  have hin : ∀ s, 1 ≤ s → s ≤ t → inE F (walk v e s) e = true := by
    intro s h1 h2
    have := hmin' (s - 1) (by omega)
    rw [outE_inE, walk_add] at this
    rwa [show s - 1 + 1 = s by omega] at this
  refine ⟨t, ht, ?_, hin t ht le_rfl, hspec, fun s h1 h2 => ⟨hin s h1 h2.le, hmin' s h2⟩⟩
  have h0 := outE_range hF h
  have h1 := inE_range hF (hin t ht le_rfl)
  unfold walk at h1
  cases e <;> simp [Dir.vec] at h1 <;> omega

/-- A straight line has a beginning. -/
theorem run_begin (hF : Within F H W) {v : Pos} {e : Dir} (h : inE F v e = true) :
    ∃ (u : Pos) (t : Nat), 1 ≤ t ∧ walk u e t = v ∧ outE F u e = true ∧ inE F u e = false ∧
      ∀ s, 1 ≤ s → s < t → inE F (walk u e s) e = true ∧ outE F (walk u e s) e = true := by
  -- the point `t` steps before `v`
  let back : Nat → Pos := fun t => (v.1 - t * e.vec.1, v.2 - t * e.vec.2)
  have hw : ∀ t s, s ≤ t → walk (back t) e s = back (t - s) := by
    intro t s hs
    simp only [back, walk]
    ext <;> push_cast [Nat.cast_sub hs] <;> ring
  have hb0 : back 0 = v := by simp [back]
  have hex : ∃ t, inE F (back t) e = false := by
    by_contra hcon
    have hall : ∀ t, inE F (back t) e = true := fun t => by
      cases hb : inE F (back t) e
      · exact absurd ⟨t, hb⟩ hcon
      · rfl
    have h0 := inE_range hF (hall 0)
    have h1 := inE_range hF (hall (H + W + 1))
    simp only [back] at h0 h1
    cases e <;> simp [Dir.vec] at h0 h1 <;> omega
  classical
  have hspec := Nat.find_spec hex
  have hmin := fun s (hs : s < Nat.find hex) => Nat.find_min hex hs
  generalize Nat.find hex = t at hspec hmin
  have hmin' : ∀ s < t, inE F (back s) e = true := fun s hs => by simpa using hmin s hs
  have ht : 1 ≤ t := by
    rcases Nat.eq_zero_or_pos t with rfl | h0
    · rw [hb0, h] at hspec; cases hspec
    · exact h0
  have hout : ∀ s, 1 ≤ s → s ≤ t → outE F (back s) e = true := by
    intro s h1 h2
    rw [outE_inE, hw s 1 h1]
    exact hmin' _ (by omega)
  refine ⟨back t, t, ht, by rw [hw t t le_rfl, Nat.sub_self, hb0], hout t ht le_rfl, hspec, fun s h1 h2 => ?_⟩
  rw [hw t s h2.le]
  exact ⟨hmin' _ (by omega), hout _ (by omega) (by omega)⟩

theorem next_exists (hF : Within F H W) {p : Piece} (h : isPiece F p = true) : ∃ q t, Next F p q t ∧ t ≤ H + W + 1 := by
  obtain ⟨t, h1, h2, h3, h4, h5⟩ := run_end hF (turn_spec h).1
  exact ⟨_, t, ⟨h1, rfl, by simp [isPiece, h3, h4], h5⟩, h2⟩

theorem prev_exists (hF : Within F H W) {q : Piece} (h : isPiece F q = true) : ∃ p t, isPiece F p = true ∧ Next F p q t := by
  obtain ⟨v, e⟩ := q
  have hi : inE F v e = true := by
    simp only [isPiece, Bool.and_eq_true] at h; exact h.1
  obtain ⟨u, t, h1, h2, h3, h4, h5⟩ := run_begin hF hi
  obtain ⟨d, hd, ht⟩ := piece_of_out h3 h4
  refine ⟨(u, d), t, hd, h1, ?_, h, ?_⟩
  · rw [ht]; simp only [h2]
  · rw [ht]; exact h5

theorem next_unique {p q q' : Piece} {t t' : Nat} (h : Next F p q t) (h' : Next F p q' t') : q = q' ∧ t = t' := by
  have hno : ∀ {q q' t t'}, Next F p q t → Next F p q' t' → ¬ t < t' := by
    intro q q' t t' h h' hlt
    have h1 := (h'.2.2.2 t h.1 hlt).2
    have h2 := h.2.2.1
    rw [h.2.1] at h2
    simp [isPiece, h1] at h2
  have : t = t' := by
    have := hno h h'; have := hno h' h; omega
  exact ⟨by rw [h.2.1, h'.2.1, this], this⟩

theorem next_inj {p p' q : Piece} {t t' : Nat} (hp : isPiece F p = true) (hp' : isPiece F p' = true) (h : Next F p q t) (h' : Next F p' q t') :
    p = p' := by
  have hdir : turn F p = turn F p' := by
    have := h.2.1.symm.trans h'.2.1
    rw [Prod.mk.injEq] at this; exact this.2
  have hpos : walk p.1 (turn F p) t = walk p'.1 (turn F p) t' := by
    have := h.2.1.symm.trans h'.2.1
    rw [Prod.mk.injEq, ← hdir] at this; exact this.1
  have hno : ∀ {p p' t t'}, isPiece F p = true → turn F p = turn F p' → 1 ≤ t → Next F p' q t' → walk p.1 (turn F p) t = walk p'.1 (turn F p) t' →
      ¬ t < t' := by
    intro p p' t t' hp hdir ht h' hpos hlt
    have hpp : p.1 = walk p'.1 (turn F p) (t' - t) := by
      have hle := hlt.le
      unfold walk at hpos ⊢
      rw [Prod.mk.injEq] at hpos
      obtain ⟨h1, h2⟩ := hpos
      ext <;> push_cast [Nat.cast_sub hle] <;> linarith
    have := (h'.2.2.2 (t' - t) (by omega) (by omega)).1
    rw [← hdir, ← hpp, (turn_spec hp).2] at this
    cases this
  have ht : t = t' := by
    have h1 := hno hp hdir h.1 h' hpos
    have h2 := hno hp' hdir.symm h'.1 h (by rw [← hdir]; exact hpos.symm)
    omega
  subst ht
  have hp1 : p.1 = p'.1 := by
    unfold walk at hpos
    rw [Prod.mk.injEq] at hpos
    obtain ⟨h1, h2⟩ := hpos
    ext <;> linarith
  obtain ⟨v, d⟩ := p
  obtain ⟨v', d'⟩ := p'
  obtain rfl : v = v' := hp1
  rw [turn_inj hp hp' hdir]

end Verif.Svg
