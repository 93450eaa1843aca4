import Verif.Scripts.CayleyProps3

/-!
# C168: the rows and columns of the matrices with the sign parts
-/

namespace Verif.Cay
open Verif.Py Verif.BV Verif.P Verif.SP Verif.SG
open Verif.A hiding Mat

theorem perm_range_of_inj {N : Nat} {g : Nat → Nat} (h1 : ∀ x < N, g x < N) (h2 : ∀ x < N, ∀ y < N, g x = g y → x = y) :
    ((List.range N).map g).Perm (List.range N) := by
  have hn : ((List.range N).map g).Nodup :=
    List.Nodup.map_on (fun x hx y hy e => h2 x (List.mem_range.1 hx) y (List.mem_range.1 hy) e) List.nodup_range
  refine (List.subperm_of_subset hn ?_).perm_of_length_le (by simp)
  intro x hx
  obtain ⟨y, hy, rfl⟩ := List.mem_map.1 hx
  exact List.mem_range.2 (h1 y (List.mem_range.1 hy))

/-- The cube vertex permutation of an unsigned permutation of `n` places fixes 0 and permutes the numbers below `2 ** n`. -/
theorem cvp_zero {n : Nat} {p : Perm} (hp : Constructed p) (hpf : p.perilen = none) (hpl : p.length ≤ n) {s : SigPerm} (hs : SG.WF s)
    (hsv : s.val = signedValue 0 p) {c : Perm} (hc : s.schoutePerm = .ok c) :
    c.get 0 = 0 ∧ (∀ x < 2 ^ n, c.get x < 2 ^ n) ∧ ∀ x y, c.get x = c.get y → x = y := by
  obtain ⟨c', c1, c2, _, _, c5⟩ := schoute_spec hs
  rw [hc] at c1
  cases c1
  have hb : ∀ x i, (c.get x).testBit (p.get i) = x.testBit i := by
    intro x i
    have := c5 x i
    rwa [hsv, nabs_signedValue, signedValue_neg, Nat.zero_testBit, Bool.xor_false] at this
  refine ⟨?_, ?_, fun x y e => c2.wf.get_bijective.1 e⟩
  · apply Nat.eq_of_testBit_eq
    intro j
    obtain ⟨i, rfl⟩ := hp.wf.get_bijective.2 j
    rw [hb]
    simp
  · intro x hx
    apply Nat.lt_pow_two_of_testBit
    intro j hj
    have := hb x j
    rw [hp.wf.finite_bounded hpf (by omega)] at this
    rw [this]
    exact Nat.testBit_lt_two_pow (Nat.lt_of_lt_of_le hx (Nat.pow_le_pow_right (by omega) hj))

/-- column `x` of a matrix -/
def column (M : List (List Nat)) (x : Nat) : List (Option Nat) := M.map fun row => row[x]?

/-- **C168.** As the script documents (for `n = 3`): the rows and the columns of the matrices are permutations of the numbers below `2 ** n`.  No two of the
`2 ** n * n!` rows are equal, but all matrices have the same columns, in different order: those of the XOR matrix.  The left column of each matrix contains the
numbers in ascending order. -/
theorem C168_rows_and_columns (n : Nat) (hn : 2 ≤ n) :
    ∃ M : Nat → List (List Nat), rowToMatrix n = .ok ((List.range n.factorial).map fun k => (k, M k)) ∧
      (∀ k < n.factorial, (M k).length = 2 ^ n ∧ (∀ row ∈ M k, row.Perm (List.range (2 ^ n))) ∧
        (∀ x < 2 ^ n, (column (M k) x).Perm ((List.range (2 ^ n)).map some)) ∧
        (∀ x < 2 ^ n, ∃ j < 2 ^ n, column (M k) x = (List.range (2 ^ n)).map fun m => some (m ^^^ j)) ∧
        (∀ j < 2 ^ n, ∃ x < 2 ^ n, column (M k) x = (List.range (2 ^ n)).map fun m => some (m ^^^ j)) ∧
        column (M k) 0 = (List.range (2 ^ n)).map some) ∧
      ∀ k < n.factorial, ∀ l < n.factorial, ∀ m < 2 ^ n, ∀ r < 2 ^ n, (M k)[m]? = (M l)[r]? → k = l ∧ m = r := by
  obtain ⟨P, hP⟩ := exists_listed n
  obtain ⟨M, h1, h2, h3⟩ := (C168_sign_parts n).1 hn
  have hpos : 0 < 2 ^ n := by positivity
  have key : ∀ k < n.factorial, ∃ g : Nat → Nat, M k = (List.range (2 ^ n)).map (fun m => (List.range (2 ^ n)).map fun x => m ^^^ g x) ∧ g 0 = 0 ∧
      (∀ x < 2 ^ n, g x < 2 ^ n) ∧ ∀ x y, g x = g y → x = y := by
    intro k hk
    obtain ⟨a0, c0, e1, e2, e3, e4⟩ := h2 k hk
    obtain ⟨s, p, s1, p1, _, _, _, s3, _, s5⟩ := pair_spec 0 k
    have s1' : new { pair := some (0, (k : Int)) } = .ok s := s1
    rw [e1] at s1'
    cases s1'
    obtain ⟨q, q1, q2⟩ := hP.idx k hk
    rw [p1] at q1
    cases q1
    rw [← signedValue_congr q2] at s5
    obtain ⟨g1, g2, g3⟩ := cvp_zero (hP.con k hk) (hP.fin k hk) (hP.len k hk) s3 s5 e2
    refine ⟨c0.get, ?_, g1, g2, g3⟩
    apply List.ext_getElem?
    intro m
    by_cases hm : m < 2 ^ n
    · obtain ⟨_, _, _, _, _, e⟩ := e4 m hm
      rw [e, List.getElem?_map, List.getElem?_range hm]
      rfl
    · rw [List.getElem?_eq_none (by omega), List.getElem?_eq_none (by simp; omega)]
  have hxl : ∀ a b : Nat, a < 2 ^ n → b < 2 ^ n → a ^^^ b < 2 ^ n := fun a b ha hb => Nat.xor_lt_two_pow ha hb
  have hxi : ∀ a b c : Nat, a ^^^ b = a ^^^ c → b = c := fun a b c h => Nat.xor_right_injective h
  have hxj : ∀ a b c : Nat, b ^^^ a = c ^^^ a → b = c := fun a b c h => Nat.xor_left_injective h
  have hcol : ∀ (g : Nat → Nat) x, x < 2 ^ n → column ((List.range (2 ^ n)).map (fun m => (List.range (2 ^ n)).map fun x => m ^^^ g x)) x =
      (List.range (2 ^ n)).map fun m => some (m ^^^ g x) := by
    intro g x hx
    unfold column
    rw [List.map_map]
    refine List.map_congr_left fun m _ => ?_
    simp only [Function.comp, List.getElem?_map, List.getElem?_range hx, Option.map_some]
  refine ⟨M, h1, ?_, ?_⟩
  · intro k hk
    obtain ⟨g, g1, g2, g3, g4⟩ := key k hk
    rw [g1]
    refine ⟨by simp, ?_, ?_, ?_, ?_, ?_⟩
    · intro row hrow
      obtain ⟨m, hm, rfl⟩ := List.mem_map.1 hrow
      exact perm_range_of_inj (fun x hx => hxl _ _ (List.mem_range.1 hm) (g3 x hx)) fun x _ y _ e => g4 x y (hxi _ _ _ e)
    · intro x hx
      rw [hcol g x hx]
      have := (perm_range_of_inj (N := 2 ^ n) (g := fun m => m ^^^ g x) (fun m hm => hxl _ _ hm (g3 x hx)) fun a _ b _ e => hxj _ _ _ e).map some
      rwa [List.map_map] at this
    · intro x hx
      exact ⟨g x, g3 x hx, hcol g x hx⟩
    · intro j hj
      have : j ∈ (List.range (2 ^ n)).map g := (perm_range_of_inj g3 fun x _ y _ e => g4 x y e).mem_iff.2 (List.mem_range.2 hj)
      obtain ⟨x, hx, rfl⟩ := List.mem_map.1 this
      exact ⟨x, List.mem_range.1 hx, hcol g x (List.mem_range.1 hx)⟩
    · rw [hcol g 0 hpos, g2]
      simp
  · intro k hk l hl m hm r hr e
    obtain ⟨g, g1, g2, g3, g4⟩ := key k hk
    obtain ⟨f, f1, f2, f3, f4⟩ := key l hl
    rw [g1, f1, List.getElem?_map, List.getElem?_map, List.getElem?_range hm, List.getElem?_range hr] at e
    have e' := Option.some.inj e
    have ex : ∀ x < 2 ^ n, m ^^^ g x = r ^^^ f x := by
      intro x hx
      have := congrArg (fun row => row[x]?) e'
      simpa only [List.getElem?_map, List.getElem?_range hx, Option.map_some, Option.some.injEq] using this
    have hmr : m = r := by
      have := ex 0 hpos
      rwa [g2, f2, Nat.xor_zero, Nat.xor_zero] at this
    subst hmr
    refine ⟨h3 k hk l hl ?_, rfl⟩
    rw [g1, f1]
    refine List.map_congr_left fun m' _ => List.map_congr_left fun x hx => ?_
    rw [hxi _ _ _ (ex x (List.mem_range.1 hx))]

example : (rowToMatrix 2) = .ok [(0, [[0, 1, 2, 3], [1, 0, 3, 2], [2, 3, 0, 1], [3, 2, 1, 0]]), (1, [[0, 2, 1, 3], [1, 3, 0, 2], [2, 0, 3, 1], [3, 1, 2, 0]])] ∧
    column [[0, 2, 1, 3], [1, 3, 0, 2], [2, 0, 3, 1], [3, 1, 2, 0]] 1 = [some 2, some 3, some 0, some 1] ∧
    column [[0, 1, 2, 3], [1, 0, 3, 2], [2, 3, 0, 1], [3, 2, 1, 0]] 2 = [some 2, some 3, some 0, some 1] := by
  decide +kernel

end Verif.Cay
