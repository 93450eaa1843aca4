import Verif.Walsh.Props1
import Verif.Walsh.Props2
import Verif.Walsh.Props4

/-! # Properties of `WalshPerm`: the argument `trust` -/

namespace Verif.W
open Verif.Py Verif.BV Verif.P
open Verif.A hiding Mat
open Verif.SG (Mat)

/-- **C34.** `trust` only postpones the check of a matrix or vector to the first read of `mapping`: without `trust` the constructor raises what
the one with `trust` raises, or else what reading `mapping` raises, and otherwise the objects are the same. -/
theorem C34_trust_matrix (m : Mat) :
    newMatrix m = (do let w ← newMatrix m true; let _ ← w.mapping; pure w) := by
  unfold newMatrix
  cases shrinkMatrix m with
  | error e => rfl
  | ok o =>
    match o with
    | none => rfl
    | some (mm, d) =>
      dsimp only
      cases matrixToVector m with
      | error e => rfl
      | ok v =>
        dsimp only
        cases matrixToVector m true with
        | error e => rfl
        | ok tv =>
          simp only [Bool.false_eq_true, if_false, if_true, bind, Except.bind, pure, Except.pure]
          cases Walsh.mapping _ <;> rfl

/-- **C34.** The same for vectors. -/
theorem C34_trust_vector (v : List Int) :
    newVector v = (do let w ← newVector v true; let _ ← w.mapping; pure w) := by
  unfold newVector
  cases vectorToMatrix v with
  | error e => rfl
  | ok o => cases o with
    | none => rfl
    | some m => exact C34_trust_matrix m

theorem wfi_trust_of_ok (b : Binv) (i : Nat) (h : walshFunctionToIndex b = .ok i) : walshFunctionToIndex b true = .ok i := by
  by_cases hp : ∃ n, b.length = 2 ^ n
  · obtain ⟨n, hn⟩ := hp
    rcases Nat.eq_zero_or_pos n with rfl | hpos
    · obtain ⟨v⟩ := b
      have hl : v.length = 1 := hn
      match v, hl with
      | [true], _ => rw [(C29_walsh_function_to_index_lengths ⟨[true]⟩ true).2.2] at h; cases h
      | [false], _ =>
        rw [(C29_walsh_function_to_index_lengths ⟨[true]⟩ false).2.1] at h
        rw [(C29_walsh_function_to_index_lengths ⟨[true]⟩ true).2.1]; exact h
    · obtain ⟨h1, h2⟩ := ((C29_walsh_function_to_index_iff n hpos b hn).1 i).1 h
      have hb : b = ⟨(List.range (2 ^ n)).map (linF n i)⟩ := by
        obtain ⟨v⟩ := b
        congr 1
        apply List.ext_getElem?
        intro j
        by_cases hj : j < 2 ^ n
        · rw [h2 j hj, List.getElem?_map, List.getElem?_range hj, Option.map_some, linF_count]
        · have hl : v.length = 2 ^ n := hn
          rw [List.getElem?_eq_none (by omega), List.getElem?_eq_none (by simpa using hj)]
      rw [hb]; exact wfi_trust h1
  · rw [(C29_walsh_function_to_index_lengths b false).1 fun n hn => hp ⟨n, hn⟩] at h; cases h

theorem mapM_imp {α β : Type} {f g : α → Except Err β} : ∀ (l : List α) (r : List β),
    (∀ a ∈ l, ∀ b, f a = .ok b → g a = .ok b) → l.mapM f = .ok r → l.mapM g = .ok r := by
  intro l
  induction l with
  | nil => intro r _ h; exact h
  | cons x l ih =>
    intro r hfg h
    rw [List.mapM_cons] at h ⊢
    simp only [bind, Except.bind, pure, Except.pure] at h ⊢
    cases hx : f x with
    | error e => rw [hx] at h; cases h
    | ok y =>
      rw [hx] at h
      rw [hfg x List.mem_cons_self y hx]
      dsimp only at h ⊢
      cases hl : l.mapM f with
      | error e => rw [hl] at h; cases h
      | ok ys => rw [hl] at h; rw [ih ys (fun a ha => hfg a (List.mem_cons_of_mem _ ha)) hl]; exact h

theorem rowIndices_trust (rows : List (List Bool)) (l : List Nat) (h : rowIndices rows false = .ok l) : rowIndices rows true = .ok l := by
  have h' : rows.mapM (fun row => do walshFunctionToIndex (← ofBools row) false) = .ok l := by
    unfold rowIndices at h
    split at h <;> cases h
    assumption
  unfold rowIndices
  rw [mapM_imp (g := fun row => do walshFunctionToIndex (← ofBools row) true) rows l ?_ h']
  intro a _ b hb
  simp only [bind, Except.bind] at hb ⊢
  cases ho : ofBools a with
  | error e => rw [ho] at hb; cases hb
  | ok x => rw [ho] at hb; exact wfi_trust_of_ok x b hb

theorem permToMatrix_trust (p : PermArg) (o : Option Mat) (h : permToMatrix p = .ok o) : permToMatrix p true = .ok o := by
  unfold permToMatrix at h ⊢
  simp only [bind, Except.bind] at h ⊢
  cases hs : permArgSeq p with
  | error e => rw [hs] at h; cases h
  | ok s =>
    rw [hs] at h
    dsimp only at h ⊢
    by_cases h0 : s.length = 0
    · rw [if_pos h0] at h; cases h
    · rw [if_neg h0] at h ⊢
      by_cases h1 : isPowerOfTwo s.length = true
      · rw [if_pos h1] at h ⊢
        by_cases h2 : s = [0] ∨ s = [0, 1]
        · rw [if_pos h2] at h ⊢; exact h
        · rw [if_neg h2] at h ⊢
          split at h
          · cases h
          · split at h
            · cases h
            · next heq => rw [rowIndices_trust _ _ heq]; exact h
      · rw [if_neg h1] at h; cases h

/-- **C34.** Every accepted input gives the same object with `trust`. -/
theorem C34_trust (a : Args) (w : Walsh) (ha : new { a with trust := false } = .ok w) : new { a with trust := true } = .ok w := by
  have hm : ∀ m, newMatrix m = .ok w → newMatrix m true = .ok w := by
    intro m h
    rw [C34_trust_matrix] at h
    simp only [bind, Except.bind, pure, Except.pure] at h
    cases ht : newMatrix m true with
    | error e => rw [ht] at h; cases h
    | ok w' =>
      rw [ht] at h
      dsimp only at h
      split at h <;> cases h
      rfl
  obtain ⟨v, m, p, t⟩ := a
  unfold new at ha ⊢
  dsimp only at ha ⊢
  split at ha
  · exact ha
  · unfold newVector at ha ⊢
    split at ha
    · cases ha
    · exact ha
    · exact hm _ ha
  · exact hm _ ha
  · unfold newPerm at ha ⊢
    cases hp : permToMatrix _ with
    | error e => rw [hp] at ha; cases ha
    | ok o =>
      rw [hp] at ha
      rw [permToMatrix_trust _ _ hp]
      cases o with
      | none => exact ha
      | some m => exact hm m ha
  · cases ha

/-- The vector of the permutation that exchanges the digits 0 and 1 -/
example : ((new { vector := some [2, 1] }).bind fun w => w.get 1) = .ok 2 ∧
    ((new { vector := some [2, 1], trust := true }).bind fun w => w.get 1) = .ok 2 := by
  decide +kernel

/-- **C34.** With `trust` wrong input is accepted.  A dependent vector gives an object whose `mapping` raises `InvalidMatrixError`.
Of a permutation only the numbers at the powers of two are read: that which exchanges 6 and 7 is taken for the neutral element. -/
theorem C34_trust_wrong :
    ((newVector [1, 1] true).map fun w => w.mapping) = .ok (.error .invalidMatrix) ∧
    ((newVector [1, 1]).map fun w => w.mapping) = .error .invalidMatrix ∧
    ((newPerm (.list [0, 1, 2, 3, 4, 5, 7, 6]) true).map fun w => (w.neutral, w.mapping)) = .ok (true, .ok []) ∧
    ((newPerm (.list [0, 1, 2, 3, 4, 5, 7, 6])).map fun w => w.neutral) = .error .invalidPerm := by
  decide +kernel

end Verif.W
