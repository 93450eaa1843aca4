import Verif.Perm.Slice
import Verif.Perm.Props2
import Mathlib.Tactic.Linarith
import Mathlib.Tactic.Ring

/-!
# C148: slices of permutations and vectors
-/

namespace Verif.P
open Verif.Py

theorem pyRange_pos {a b c : Int} (hc : 0 < c) : ∃ l, pyRange a b c = .ok l ∧ ∀ k : Nat, l[k]? = if a + k * c < b then some (a + k * c) else none := by
  unfold pyRange
  rw [if_neg (by omega)]
  refine ⟨_, rfl, fun k => ?_⟩
  rw [List.getElem?_map, if_pos hc]
  have key : k < ((b - a + c - 1) / c).toNat ↔ a + k * c < b := by
    rw [Int.lt_toNat, Int.lt_iff_add_one_le, Int.le_ediv_iff_mul_le hc]
    constructor
    · intro h
      have : ((k : Int) + 1) * c = k * c + c := by ring
      omega
    · intro h
      have : ((k : Int) + 1) * c = k * c + c := by ring
      omega
  by_cases h : a + k * c < b
  · rw [if_pos h, List.getElem?_range (key.2 h)]
    rfl
  · rw [if_neg h, List.getElem?_eq_none (by rw [List.length_range]; exact Nat.le_of_not_lt fun hk => h (key.1 hk))]
    rfl

theorem pyRange_neg {a b c : Int} (hc : c < 0) : ∃ l, pyRange a b c = .ok l ∧ ∀ k : Nat, l[k]? = if b < a + k * c then some (a + k * c) else none := by
  unfold pyRange
  rw [if_neg (by omega)]
  refine ⟨_, rfl, fun k => ?_⟩
  rw [List.getElem?_map, if_neg (by omega)]
  have key : k < ((a - b - c - 1) / (-c)).toNat ↔ b < a + k * c := by
    rw [Int.lt_toNat, Int.lt_iff_add_one_le, Int.le_ediv_iff_mul_le (by omega)]
    have : ((k : Int) + 1) * -c = -(k * c) - c := by ring
    rw [this]
    constructor <;> intro h <;> omega
  by_cases h : b < a + k * c
  · rw [if_pos h, List.getElem?_range (key.2 h)]
    rfl
  · rw [if_neg h, List.getElem?_eq_none (by rw [List.length_range]; exact Nat.le_of_not_lt fun hk => h (key.1 hk))]
    rfl

/-- **C148.** `slice_to_range`: without a start it begins with 0, without a step it counts up, and without an end the second argument is taken.  The numbers are
those before the end, in the direction of the step.  A missing end raises `StopMissingError`, and the step 0 raises `ValueError`. -/
theorem C148_slice_to_range (s : Slice) (d : Option Int) :
    (s.stop = none → d = none → sliceToRange s d = .error .stopMissing) ∧
    (∀ b, s.stop.or d = some b →
      (s.step = some 0 → sliceToRange s d = .error .valueError) ∧
      (0 < s.step.getD 1 → ∃ l, sliceToRange s d = .ok l ∧
        ∀ k : Nat, l[k]? = if s.start.getD 0 + k * s.step.getD 1 < b then some (s.start.getD 0 + k * s.step.getD 1) else none) ∧
      (s.step.getD 1 < 0 → ∃ l, sliceToRange s d = .ok l ∧
        ∀ k : Nat, l[k]? = if b < s.start.getD 0 + k * s.step.getD 1 then some (s.start.getD 0 + k * s.step.getD 1) else none)) := by
  obtain ⟨a, b', c⟩ := s
  refine ⟨fun h1 h2 => by simp only at h1; subst h1 h2; rfl, fun b hb => ?_⟩
  have he : sliceToRange ⟨a, b', c⟩ d = pyRange (a.getD 0) b (c.getD 1) := by
    simp only at hb
    unfold sliceToRange
    cases b' <;> cases a <;> cases c <;> simp_all [Option.or]
  rw [he]
  refine ⟨fun h => ?_, fun h => pyRange_pos h, fun h => pyRange_neg h⟩
  simp only at h
  subst h
  rfl

/-- What a slice of a function on the natural numbers should be: entry `k` is the value at `start + k * step`, as long as the end is not reached.
At negative places it is `None`. -/
def IsSlice (value : Nat → Nat) (length : Nat) (s : Slice) (r : Except Err (List (Option Nat))) : Prop :=
  let start := s.start.getD 0
  let step := s.step.getD 1
  let stop := s.stop.getD length
  (step = 0 → r = .error .valueError) ∧
  (step ≠ 0 → ∃ l, r = .ok l ∧ ∀ k : Nat, l[k]? =
    if (0 < step ∧ start + k * step < stop) ∨ (step < 0 ∧ stop < start + k * step) then some (if 0 ≤ start + k * step then some (value (start + k * step).toNat) else none)
    else none)

theorem isSlice_of {value : Nat → Nat} {length : Nat} {s : Slice} {g : Int → Option Nat} (hg : ∀ i, g i = if 0 ≤ i then some (value i.toNat) else none) :
    IsSlice value length s (do return (← sliceToRange s (some (length : Int))).map g) := by
  have hb : s.stop.or (some (length : Int)) = some (s.stop.getD length) := by cases s.stop <;> rfl
  obtain ⟨h1, h2, h3⟩ := (C148_slice_to_range s (some (length : Int))).2 _ hb
  refine ⟨fun h => ?_, fun h => ?_⟩
  · rw [h1 (by cases hs : s.step with
      | none => rw [hs] at h; cases h
      | some c => rw [hs] at h; simp only [Option.getD_some] at h; rw [h])]
    rfl
  · rcases lt_or_gt_of_ne h with h' | h'
    · obtain ⟨l, l1, l2⟩ := h3 h'
      refine ⟨l.map g, by rw [l1]; rfl, fun k => ?_⟩
      rw [List.getElem?_map, l2]
      by_cases hk : s.stop.getD length < s.start.getD 0 + k * s.step.getD 1
      · rw [if_pos hk, if_pos (.inr ⟨h', hk⟩)]
        simp [hg]
      · rw [if_neg hk, if_neg (by rintro (⟨h, _⟩ | ⟨_, h⟩) <;> omega)]
        rfl
    · obtain ⟨l, l1, l2⟩ := h2 h'
      refine ⟨l.map g, by rw [l1]; rfl, fun k => ?_⟩
      rw [List.getElem?_map, l2]
      by_cases hk : s.start.getD 0 + k * s.step.getD 1 < s.stop.getD length
      · rw [if_pos hk, if_pos (.inl ⟨h', hk⟩)]
        simp [hg]
      · rw [if_neg hk, if_neg (by rintro (⟨_, h⟩ | ⟨h, _⟩) <;> omega)]
        rfl

theorem slice_ext {value : Nat → Nat} {length : Nat} {s : Slice} {r : Except Err (List (Option Nat))} {m : Nat} (h : IsSlice value length s r)
    (h1 : s.start.getD 0 = 0) (h2 : s.step.getD 1 = 1) (h3 : s.stop.getD length = m) : r = .ok ((List.range m).map fun i => some (value i)) := by
  unfold IsSlice at h
  simp only [h1, h2, h3] at h
  obtain ⟨l, rfl, hl⟩ := h.2 (by decide)
  refine congrArg _ (List.ext_getElem? fun k => ?_)
  rw [hl k, List.getElem?_map]
  by_cases hk : k < m
  · rw [if_pos (.inl ⟨by decide, by omega⟩), List.getElem?_range hk, if_pos (by omega)]
    simp
  · rw [if_neg (by rintro (⟨_, h⟩ | ⟨h, _⟩) <;> omega), List.getElem?_eq_none (by simpa using hk)]
    rfl

theorem slice_back {value : Nat → Nat} {length : Nat} {s : Slice} {r : Except Err (List (Option Nat))} (h : IsSlice value length s r)
    (h1 : s.start = none) (h2 : s.stop = none) (h3 : s.step.getD 1 < 0) : r = .ok [] := by
  unfold IsSlice at h
  simp only [h1, h2, Option.getD_none] at h
  obtain ⟨l, rfl, hl⟩ := h.2 (by omega)
  refine congrArg _ (List.ext_getElem? fun k => ?_)
  rw [hl k, if_neg]
  · rfl
  · have : (k : Int) * s.step.getD 1 ≤ 0 := mul_nonpos_of_nonneg_of_nonpos (by omega) h3.le
    rintro (⟨h, _⟩ | ⟨_, h⟩) <;> omega

/-- **C148.** Slices of a `Perm`.  `p[:]` has the entries of `p.sequence()`, and `p[:n]` those of `p.sequence(n)` when that is defined (it is never too short).
Negative numbers in a slice do not count from the end: `p[::-1]` is empty. -/
theorem C148_perm (p : Perm) (hp : Constructed p) (s : Slice) :
    IsSlice p.get p.length s (p.getSlice s) ∧
    p.getSlice {} = (do return (← p.sequence).map some) ∧
    (∀ (n : Nat) (l : List Nat), p.sequence (some n) = .ok l → p.getSlice { stop := some (n : Int) } = .ok (l.map some)) ∧
    (∀ c < 0, p.getSlice { step := some c } = .ok []) := by
  have h : ∀ s, IsSlice p.get p.length s (p.getSlice s) := fun s => isSlice_of fun i => rfl
  refine ⟨h s, ?_, fun n l hl => ?_, fun c hc => slice_back (h _) rfl rfl hc⟩
  · rw [slice_ext (h {}) rfl rfl rfl, C11_sequence_default]
    cases hq : p.perilen with
    | none =>
      simp only
      rw [((C11_sequence p p.length).1 hq).1 (Nat.le_refl _)]
      simp [bind, Except.bind, pure, Except.pure]
    | some l =>
      simp only
      have hl : p.length = l := hp.wf.per_length l hq
      rw [((C11_sequence p l).2 l hq).1 (Nat.dvd_refl _), hl]
      simp [bind, Except.bind, pure, Except.pure]
  · rw [slice_ext (m := n) (h _) rfl rfl rfl]
    have : l = (List.range n).map p.get := by
      cases hq : p.perilen with
      | none =>
        by_cases hn : p.length ≤ n
        · rw [((C11_sequence p n).1 hq).1 hn] at hl; exact (Except.ok.inj hl).symm
        · rw [((C11_sequence p n).1 hq).2 (by omega)] at hl; cases hl
      | some c =>
        by_cases hn : c ∣ n
        · rw [((C11_sequence p n).2 c hq).1 hn] at hl; exact (Except.ok.inj hl).symm
        · rw [((C11_sequence p n).2 c hq).2 hn] at hl; cases hl
    rw [this, List.map_map]
    rfl

example : (mkPerm (.seq [2, 0, 1, 4, 3])).bind (fun p => p.getSlice { start := some 1, stop := some 8, step := some 3 }) = .ok [some 0, some 3, some 7] := by decide
example : (mkPerm (.seq [2, 0, 1]) (some 3)).bind (fun p => p.getSlice { start := some 5, stop := some (-2), step := some (-2) }) = .ok [some 4, some 5, some 0, none] := by decide

end Verif.P

namespace Verif.W
open Verif.Py Verif.P

/-- **C148.** Slices of a `Vector` of powers of two and other numbers (used in `WalshPerm`).  `v[:]` has the entries of `v.extend_to_length(v.length)`. -/
theorem C148_vector (v : Vec) (s : Slice) :
    IsSlice (Vec.get v) (Vec.length v) s (Vec.getSlice v s) ∧
    (∀ n : Nat, Vec.length v ≤ n → Vec.getSlice v { stop := some (n : Int) } = (do return (← Vec.extendToLength v n).map some)) ∧
    Vec.getSlice v {} = (do return (← Vec.extendToLength v (Vec.length v)).map some) := by
  have h : ∀ s, IsSlice (Vec.get v) (Vec.length v) s (Vec.getSlice v s) := fun s => isSlice_of fun i => rfl
  refine ⟨h s, fun n hn => ?_, ?_⟩
  · rw [slice_ext (m := n) (h _) rfl rfl rfl]
    unfold Vec.extendToLength
    rw [if_pos hn]
    simp [bind, Except.bind, pure, Except.pure]
  · rw [slice_ext (m := Vec.length v) (h _) rfl rfl rfl]
    unfold Vec.extendToLength
    rw [if_pos (Nat.le_refl _)]
    simp [bind, Except.bind, pure, Except.pure]

example : Vec.getSlice (Vec.ofList [1, 3, 4]) {} = .ok [some 1, some 3] := by decide

/-- **C148.** A `WalshPerm` has slices only if it is neutral (then those of the identity).  Otherwise `AttributeError` is raised, because it has no length. -/
theorem C148_walsh_perm (w : Walsh) (s : Slice) :
    (w.neutral = true → IsSlice id 0 s (w.getSlice s)) ∧ (w.neutral = false → w.getSlice s = .error .attributeError) := by
  unfold Walsh.getSlice
  refine ⟨fun h => ?_, fun h => by rw [h]; rfl⟩
  rw [if_pos h]
  exact isSlice_of fun i => rfl

/-- The sequence of `WalshPerm([3, 1])` is 0, 3, 1, 2, but it has no slices. -/
example : (newVector [3, 1]).bind (fun w => w.sequence) = .ok [0, 3, 1, 2] ∧
    (newVector [3, 1]).bind (fun w => w.getSlice { stop := some 4 }) = .error .attributeError := by decide +kernel

end Verif.W
