import Verif.Perm.Props
import Mathlib.Tactic.NormNum

/-!
# C165: the order of a permutation with 64-bit integers

`Perm.order` (Model.lean) uses unbounded integers.  Here the results of `np.lcm` have 64 bits.
-/

namespace Verif.P
open Verif.Py

/-- `np.lcm` for two `np.int64`: `|a| / gcd * |b|` is computed modulo `2 ** 64`, and the result is read as a signed integer
(external library). -/
def lcm64 (a b : Int) : Int :=
  let g := Nat.gcd a.natAbs b.natAbs
  if g = 0 then 0 else Int.bmod ((a.natAbs / g * b.natAbs : Nat) : Int) (2 ^ 64)

/-- `np.lcm.reduce` begins with the first number; it raises `ValueError` for an empty list (external library). -/
def lcmReduce64 : List Int → Except Err Int
  | [] => .error .valueError
  | x :: l => .ok (l.foldl lcm64 x)

/-- perm/metributes/order.py:6-17 -/
def Perm.order64 (p : Perm) : Except Err Int :=
  if p.neutral then .ok 1
  else
    match p.cycles with
    | .error e => .error e
    | .ok cs => lcmReduce64 (cs.map fun c => (c.length : Int))

theorem bmod_small {n : Nat} (h : n < 2 ^ 63) : Int.bmod (n : Int) (2 ^ 64) = n := by
  apply Int.bmod_eq_of_le <;> omega

theorem lcm64_small {a b : Nat} (h : Nat.lcm a b < 2 ^ 63) : lcm64 a b = (Nat.lcm a b : Nat) := by
  unfold lcm64
  simp only [Int.natAbs_natCast]
  split
  · rename_i h0
    rw [Nat.gcd_eq_zero_iff] at h0
    rw [h0.1, Nat.lcm_zero_left]; rfl
  · have e : a / Nat.gcd a b * b = Nat.lcm a b := by
      unfold Nat.lcm
      rw [Nat.div_mul_right_comm (Nat.gcd_dvd_left a b)]
    rw [e, bmod_small h]

theorem dvd_foldl_lcm (l : List Nat) (a : Nat) : a ∣ l.foldl Nat.lcm a := by
  induction l generalizing a with
  | nil => exact dvd_refl a
  | cons x l ih => exact (Nat.dvd_lcm_left a x).trans (ih _)

theorem foldl_lcm64 (l : List Nat) (a : Nat) (h0 : 0 < l.foldl Nat.lcm a) (h : l.foldl Nat.lcm a < 2 ^ 63) :
    (l.map (fun n : Nat => (n : Int))).foldl lcm64 a = (l.foldl Nat.lcm a : Nat) := by
  induction l generalizing a with
  | nil => rfl
  | cons x l ih =>
    simp only [List.foldl_cons, List.map_cons] at h0 h ⊢
    rw [lcm64_small (lt_of_le_of_lt (Nat.le_of_dvd h0 (dvd_foldl_lcm l _)) h)]
    exact ih _ h0 h

theorem lcm64_range (a b : Int) : -2 ^ 63 ≤ lcm64 a b ∧ lcm64 a b < 2 ^ 63 := by
  unfold lcm64
  simp only
  split
  · norm_num
  · have h1 := Int.le_bmod (x := ((a.natAbs / Nat.gcd a.natAbs b.natAbs * b.natAbs : Nat) : Int)) (m := 2 ^ 64) (by norm_num)
    have h2 := Int.bmod_lt (x := ((a.natAbs / Nat.gcd a.natAbs b.natAbs * b.natAbs : Nat) : Int)) (m := 2 ^ 64) (by norm_num)
    norm_num at h1 h2 ⊢
    omega

theorem foldl_lcm64_range (l : List Int) (a : Int) (ha : -2 ^ 63 ≤ a ∧ a < 2 ^ 63) : -2 ^ 63 ≤ l.foldl lcm64 a ∧ l.foldl lcm64 a < 2 ^ 63 := by
  induction l generalizing a with
  | nil => exact ha
  | cons x l ih => exact ih _ (lcm64_range a x)

/-- **C165.** With 64-bit integers `order` is right exactly for the permutations whose order (the smallest positive exponent that gives the identity) is below `2 ** 63`
(if no cycle is longer than that). -/
theorem C165_order (p : Perm) (hp : Constructed p) (hlen : ∀ cs, p.cycles = .ok cs → ∀ c ∈ cs, c.length < 2 ^ 63) :
    ∃ (o : Nat) (r : Int), 0 < o ∧ (∀ n : Int, OkEq (p.pow n) (.ok neutralPerm) ↔ (o : Int) ∣ n) ∧ p.order64 = .ok r ∧ -2 ^ 63 ≤ r ∧ r < 2 ^ 63 ∧
      (r = o ↔ o < 2 ^ 63) := by
  obtain ⟨o, h1, h2, _, h3⟩ := C09_order p hp
  have key : ∃ r : Int, p.order64 = .ok r ∧ -2 ^ 63 ≤ r ∧ r < 2 ^ 63 ∧ (o < 2 ^ 63 → r = o) := by
    unfold Perm.order at h1
    unfold Perm.order64
    split at h1
    · rename_i hn
      cases h1
      rw [if_pos hn]
      exact ⟨1, rfl, by norm_num, by norm_num, fun _ => rfl⟩
    · rename_i hn
      rw [if_neg hn]
      obtain ⟨cs, c1, c2⟩ := hp.wf.cycles_spec
      rw [c1] at h1 ⊢
      simp only at h1 ⊢
      cases cs with
      | nil =>
        exfalso
        apply hn
        rw [hp.wf.neutral_iff]
        have hk : p.mapping.keys = [] := List.eq_nil_iff_forall_not_mem.2 fun x hx => by
          have := (c2.mem x).2 hx
          cases this
        exact List.map_eq_nil_iff.1 hk
      | cons c cs =>
        simp only [List.map_cons, List.foldl_cons, Nat.lcm_one_left, Except.ok.injEq] at h1
        have hc := hlen _ c1 c (by simp)
        have hr := foldl_lcm64_range (cs.map fun c => (c.length : Int)) (c.length : Int) ⟨by omega, by omega⟩
        refine ⟨_, rfl, hr.1, hr.2, fun ho => ?_⟩
        have := foldl_lcm64 (cs.map List.length) c.length (by omega) (by omega)
        rw [List.map_map] at this
        rw [h1] at this
        exact this
  obtain ⟨r, r1, r2, r3, r4⟩ := key
  exact ⟨o, r, h2, h3, r1, r2, r3, fun h => by omega, r4⟩

/-! ## A permutation with a negative order -/

/-- cycles of consecutive numbers with the given lengths -/
def blockCycles : Nat → List Nat → List (List Nat)
  | _, [] => []
  | k, n :: l => ((List.range n).map (· + k)) :: blockCycles (k + n) l

/-- the first 16 primes -/
def primes16 : List Nat := [2, 3, 5, 7, 11, 13, 17, 19, 23, 29, 31, 37, 41, 43, 47, 53]

/-- **C165.** (Deviation) The permutation of the first 381 numbers whose cycles have these lengths has a negative `order`, and this power of it is not the identity. -/
theorem C165_negative : ∃ p, Constructed p ∧ mkPerm (.cycles (blockCycles 0 primes16)) none = .ok p ∧ p.length = 381 ∧
    p.order64 = .ok (-4304329670229058502) ∧ ¬ OkEq (p.pow (-4304329670229058502)) (.ok neutralPerm) := by
  have h0 : ((mkPerm (.cycles (blockCycles 0 primes16)) none).bind fun p => .ok (p.length, p.order64.toOption, p.order.toOption)) =
      .ok (381, some (-4304329670229058502), some 32589158477190044730) := by decide +kernel
  cases hp : mkPerm (.cycles (blockCycles 0 primes16)) none with
  | error e => rw [hp] at h0; cases h0
  | ok p =>
    rw [hp] at h0
    simp only [Except.bind, Except.ok.injEq, Prod.mk.injEq] at h0
    have hc : Constructed p := ⟨_, none, by show (blockCycles 0 primes16).flatten.Nodup; decide +kernel, hp⟩
    obtain ⟨o, h1, _, _, h3⟩ := C09_order p hc
    rw [h1] at h0
    have e : o = 32589158477190044730 := Option.some.inj h0.2.2
    refine ⟨p, hc, rfl, h0.1, ?_, ?_⟩
    · cases h : p.order64 with
      | error e => rw [h] at h0; cases h0.2.1
      | ok r => rw [h] at h0; rw [Option.some.inj h0.2.1]
    · rw [h3, e]
      decide

example : ∃ p, Constructed p ∧ mkPerm (.cycles [[0, 1], [2, 3, 4]]) none = .ok p ∧ p.order64 = .ok 6 := by
  cases hp : mkPerm (.cycles [[0, 1], [2, 3, 4]]) none with
  | error e =>
    have : (mkPerm (.cycles [[0, 1], [2, 3, 4]]) none).toOption.isSome = true := by decide
    rw [hp] at this; cases this
  | ok p =>
    have : ((mkPerm (.cycles [[0, 1], [2, 3, 4]]) none).bind fun p => p.order64) = .ok 6 := by decide
    rw [hp] at this
    exact ⟨p, ⟨_, none, by show List.Nodup [0, 1, 2, 3, 4]; decide, hp⟩, rfl, this⟩

end Verif.P
