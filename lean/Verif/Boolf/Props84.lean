import Verif.Boolf.Props5
import Verif.SigPerm.Props
import Verif.Walsh.Props3

/-! # Further theorems for properties C36, C62 and C69: `complement_distance`, `sequence_string` and `vals` -/

namespace Verif.W
open Verif.Py Verif.BV Verif.P
open Verif.A hiding Mat
open Verif.SG (Mat)

/-- **C36.** `complement_distance` is the distance of the place of the greatest number below `2**n` from the last place, for each `n` from the degree on.  It is
0 iff the number `2**degree - 1` is fixed. -/
theorem C36_complement_distance (w : Walsh) (hw : Constructed w) :
    ∃ d, w.complementDistance = .ok d ∧ d < 2 ^ w.degree ∧
      (∀ n, w.degree ≤ n → w.complementPattern n = .ok (2 ^ n - 1 - d) ∧ w.get (2 ^ n - 1 - d) = .ok (2 ^ n - 1)) ∧
      (d = 0 ↔ w.get (2 ^ w.degree - 1) = .ok (2 ^ w.degree - 1)) := by
  obtain ⟨d, hd⟩ : ∃ d, w.complementDistance = .ok d := by
    obtain ⟨c, h1, -⟩ := (C36_complement_pattern w hw w.degree).1 le_rfl
    unfold Walsh.complementPattern at h1
    rw [if_pos le_rfl] at h1
    cases h : w.complementDistance with
    | error e => rw [h] at h1; cases h1
    | ok d => exact ⟨d, rfl⟩
  have h2 := Nat.two_pow_pos w.degree
  have hlt : d < 2 ^ w.degree := by
    unfold Walsh.complementDistance at hd
    split at hd
    · cases hd; exact h2
    · split at hd
      · cases hd
      · dsimp only at hd
        split at hd
        · cases hd
        · cases hd; omega
  have hpat : ∀ n, w.degree ≤ n → w.complementPattern n = .ok (2 ^ n - 1 - d) ∧ w.get (2 ^ n - 1 - d) = .ok (2 ^ n - 1) := by
    intro n hn
    obtain ⟨c, h1, h3, h4⟩ := (C36_complement_pattern w hw n).1 hn
    have h5 : w.complementPattern n = .ok (2 ^ n - 1 - d) := by
      unfold Walsh.complementPattern
      rw [if_pos hn, hd]
    rw [h5] at h1
    cases h1
    exact ⟨h5, h4⟩
  refine ⟨d, hd, hlt, hpat, fun h => ?_, fun h => ?_⟩
  · have := (hpat w.degree le_rfl).2
    rwa [h] at this
  · obtain ⟨f, hf, hbij, -⟩ := C34_linear w hw
    have h3 := (hpat w.degree le_rfl).2
    rw [hf, ← h, hf] at h3
    have := hbij.1 (Except.ok.inj h3)
    omega

example : ∃ w, new { vector := some [1, 3, 6] } = .ok w ∧ Constructed w := by
  obtain ⟨w, h, -⟩ := C34_vector [1, 3, 6] (by decide) (by
    have key : ∀ s ∈ [1, 3, 6].sublists, s ≠ [] → s.foldl (· ^^^ ·) 0 ≠ 0 := by decide
    exact fun s hs => key s (List.mem_sublists.2 hs))
  exact ⟨w, h, _, rfl, h⟩

end Verif.W

namespace Verif.SG
open Verif.Py Verif.P Verif.BV Verif.A

/-- the entries, separated by commas and blanks -/
def spelled (l : List Int) : List Char :=
  [',', ' '].intercalate (l.map fun z => if z < 0 then '~' :: Nat.toDigits 10 (-z - 1).toNat else Nat.toDigits 10 z.toNat)

theorem listStrTail_intercalate {α : Type} (e : α → List Char) (l : List α) :
    listStrTail e l = (l.map fun x => [',', ' '] ++ e x).flatten ++ [']'] := by
  induction l with
  | nil => rfl
  | cons x l ih => rw [listStrTail, ih]; simp

theorem intercalate_cons (x : List Char) (l : List (List Char)) :
    [',', ' '].intercalate (x :: l) = x ++ (l.map fun y => [',', ' '] ++ y).flatten := by
  induction l generalizing x with
  | nil => simp [List.intercalate]
  | cons y l ih =>
    have := ih y
    simp only [List.intercalate, List.intersperse_cons_cons, List.flatten_cons, List.map_cons] at this ⊢
    rw [this]
    simp

theorem listStr_intercalate {α : Type} (e : α → List Char) (l : List α) : listStr e l = '[' :: ([',', ' '].intercalate (l.map e) ++ [']']) := by
  cases l with
  | nil => rfl
  | cons x l =>
    rw [listStr, listStrTail_intercalate, List.map_cons, intercalate_cons]
    simp [Function.comp_def]

theorem entry_eq (z : Int) : (if z < 0 then ['~'] else []) ++ intStr (logicAbs z) =
    if z < 0 then '~' :: Nat.toDigits 10 (-z - 1).toNat else Nat.toDigits 10 z.toNat := by
  rw [intStr_nonneg (logicAbs_nonneg z)]
  have : (logicAbs z).toNat = if z < 0 then (-z - 1).toNat else z.toNat := by
    unfold logicAbs inv; split <;> rfl
  rw [this]
  split <;> rfl

/-- a character of the entries -/
def Plain (c : Char) : Prop := c ≠ '[' ∧ c ≠ ']'

theorem digit_plain {c : Char} (h : c.isDigit = true) : Plain c :=
  ⟨fun e => by subst e; exact absurd h (by decide), fun e => by subst e; exact absurd h (by decide)⟩

theorem spelled_plain {l : List Int} {c : Char} (h : c ∈ spelled l) : Plain c := by
  have hent : ∀ z : Int, ∀ c ∈ (if z < 0 then '~' :: Nat.toDigits 10 (-z - 1).toNat else Nat.toDigits 10 z.toNat), Plain c := by
    intro z c hc
    split at hc
    · rcases List.mem_cons.1 hc with rfl | hc
      · exact ⟨by decide, by decide⟩
      · exact digit_plain (natStr_digit (n := (-z - 1).toNat) hc)
    · exact digit_plain (natStr_digit (n := z.toNat) hc)
  unfold spelled at h
  cases l with
  | nil => simp [List.intercalate] at h
  | cons z l =>
    rw [List.map_cons, intercalate_cons, List.mem_append, List.mem_flatten] at h
    rcases h with h | ⟨x, hx, hc⟩
    · exact hent z c h
    · simp only [List.map_map, List.mem_map, Function.comp_apply] at hx
      obtain ⟨y, _, rfl⟩ := hx
      simp only [List.cons_append, List.nil_append, List.mem_cons] at hc
      rcases hc with rfl | rfl | hc
      · exact ⟨by decide, by decide⟩
      · exact ⟨by decide, by decide⟩
      · exact hent y c hc

theorem spelled_inj {l m : List Int} (h : spelled l = spelled m) : l = m := by
  have e : ∀ k : List Int, listStr logicStr k = '[' :: (spelled k ++ [']']) := by
    intro k
    rw [listStr_intercalate]
    unfold spelled
    congr 3
    apply List.map_congr_left
    intro z _
    rw [← entry_eq, logicStr_eq, intStr_nonneg (logicAbs_nonneg z)]
  have : listStr logicStr l ++ [')'] = listStr logicStr m ++ [')'] := by rw [e, e, h]
  exact (listStr_inj logicStr_decodable _ _ _ _ this).1

/-- **C62.** `sequence_string(n)` shows the first `n` entries, with `~` before the complement of a negative one, in square brackets or in round parentheses; a
length below that of the signed permutation raises `ValueError`.  Without a length it is that of the signed permutation.  The string determines the number of
entries and the entries. -/
theorem C62_sequence_string (s : SigPerm) (hs : Finite s) (round : Bool) :
    (∀ n, s.length ≤ n → s.sequenceString (some n) round =
      .ok ((if round then '(' else '[') :: (spelled ((List.range n).map s.value) ++ [if round then ')' else ']']))) ∧
    (∀ n, n < s.length → s.sequenceString (some n) round = .error .valueError) ∧
    s.sequenceString none round = s.sequenceString (some s.length) round ∧
    (∀ t, Finite t → ∀ n m, s.length ≤ n → t.length ≤ m →
      (s.sequenceString (some n) round = t.sequenceString (some m) round ↔ n = m ∧ ∀ i, s.value i = t.value i)) := by
  have key : ∀ s : SigPerm, Finite s → ∀ n, s.length ≤ n → s.sequenceString (some n) round =
      .ok ((if round then '(' else '[') :: (spelled ((List.range n).map s.value) ++ [if round then ')' else ']'])) := by
    intro s hs n hn
    unfold SigPerm.sequenceString
    rw [(C31_sequence s hs).1 n hn]
    simp only [Except.map, entry_eq]
    rw [listStr_intercalate]
    change Except.ok (if round then List.map _ ('[' :: (spelled ((List.range n).map s.value) ++ [']'])) else '[' :: (spelled ((List.range n).map s.value) ++ [']'])) = _
    cases round with
    | false => rfl
    | true =>
      simp only [if_true, List.map_cons, List.map_append, List.map_nil]
      congr 3
      conv_rhs => rw [← List.map_id (spelled ((List.range n).map s.value))]
      apply List.map_congr_left
      intro c hc
      have := spelled_plain hc
      rw [if_neg this.1, if_neg this.2]
      rfl
  refine ⟨key s hs, fun n hn => ?_, ?_, fun t ht n m hn hm => ?_⟩
  · unfold SigPerm.sequenceString
    rw [(C31_sequence s hs).2.1 n hn]
    rfl
  · unfold SigPerm.sequenceString
    rw [(C31_sequence s hs).2.2.1]
  · rw [key s hs n hn, key t ht m hm]
    constructor
    · intro h
      have h := Except.ok.inj h
      simp only [List.cons.injEq, true_and, List.append_cancel_right_eq] at h
      have h2 := spelled_inj h
      have hl : n = m := by simpa using congrArg List.length h2
      subst hl
      refine ⟨rfl, fun i => ?_⟩
      by_cases hi : i < n
      · exact List.map_inj_left.1 h2 i (List.mem_range.2 hi)
      · rw [((C31_sequence s hs).2.2.2.2.1 n).1 hn i (by omega), ((C31_sequence t ht).2.2.2.2.1 n).1 hm i (by omega)]
    · rintro ⟨rfl, h⟩
      rw [show s.value = t.value from funext h]

example : (new { sequence := some [-3, 0, 1] }).bind (·.sequenceString (some 4) true) = .ok "(~2, 0, 1, 3)".toList ∧
    (new { sequence := some [-3, 0, 1] }).bind (·.sequenceString (some 2)) = .error .valueError := by decide
example : spelled [-3, 0, 11] = "~2, 0, 11".toList := by decide

end Verif.SG

namespace Verif.BF
open Verif.Py Verif.BV Verif.P Verif.W
open Verif.A hiding Mat

/-- **C69.** `vals` with a signed permutation of the atomkeys: a vector with one entry for each assignment of the atoms.  Entry `i` is the value of the function
for each key in which atom `k` has the value of literal `k` in `i`.  Wrong numbers of arguments raise `SarityMismatchError`, other arguments
`UnexpectedArgumentError`. -/
theorem C69_vals (f : Boolf) (hf : Obj f) (perm : List Int) :
    (perm.length ≠ f.valency → f.vals perm = .error .sarityMismatch) ∧
    (perm.length = f.valency → perm ≠ [] → (∀ k < f.valency, ∃ z ∈ perm, z = (k : Int) ∨ z = -(k : Int) - 1) →
      ∃ b, f.vals perm = .ok b ∧ b.length = 2 ^ f.valency ∧
        ∀ i key : Nat, i < 2 ^ f.valency →
          (∀ (k x : Nat) (z : Int), f.atomvals[k]? = some x → perm[k]? = some z → key.testBit x = decide (¬ FalseIn i z)) →
          b.getItem i = f.getItem key) ∧
    (perm.length = f.valency → perm ≠ [] → (∃ k < f.valency, ∀ z ∈ perm, z ≠ (k : Int) ∧ z ≠ -(k : Int) - 1) →
      f.vals perm = .error .unexpectedArgument) ∧
    (f.valency = 0 → f.vals [] = .error .indexError) := by
  have h := hf.good.toSound
  have hmem : ∀ k, k ∈ absN perm ↔ ∃ z ∈ perm, z = (k : Int) ∨ z = -(k : Int) - 1 := by
    intro k
    unfold absN
    rw [List.mem_map]
    constructor <;> rintro ⟨z, hz, e⟩ <;> refine ⟨z, hz, ?_⟩
    · rw [logicAbs_toNat] at e; split at e <;> omega
    · rw [logicAbs_toNat]; split <;> omega
  have hal : (absN perm).length = perm.length := by simp [absN]
  refine ⟨fun hl => by unfold Boolf.vals; rw [if_neg hl], fun hl hne hp => ?_, fun hl hne ⟨k, hk, hz⟩ => ?_, fun h0 => ?_⟩
  · have h0 : f.valency ≠ 0 := by rw [← hl]; simpa using hne
    have hperm : (absN perm).Perm (List.range f.valency) := by
      have hsub : List.range f.valency ⊆ absN perm := fun k hk => (hmem k).2 (hp k (List.mem_range.1 hk))
      have := (List.subperm_of_subset List.nodup_range hsub).perm_of_length_le (by simp [hal, hl])
      exact this.symm
    refine ⟨_, (vals_spec h hl h0).1 hperm, by simp [Binv.length], fun i key hi hk => ?_⟩
    rw [getItem_ok (by simpa [Binv.length] using hi), getItem_eq h]
    refine congrArg Except.ok ?_
    have e : ∀ (g : Nat → Bool) (hi' : i < ((List.range (2 ^ f.valency)).map g).length), ((List.range (2 ^ f.valency)).map g)[i] = g i := by simp
    refine (e _ _).trans ?_
    unfold Boolf.eval
    congr 2
    apply List.ext_getElem?
    intro k
    rw [List.getElem?_map, List.getElem?_map]
    have hv := h.val
    by_cases hkl : k < perm.length
    · have hka : k < f.atomvals.length := by omega
      rw [List.getElem?_eq_getElem hkl, List.getElem?_eq_getElem hka]
      simp only [Option.map_some, Option.some.injEq]
      rw [hk k _ _ (List.getElem?_eq_getElem hka) (List.getElem?_eq_getElem hkl), lit_iff]
    · rw [List.getElem?_eq_none (show perm.length ≤ k by omega), List.getElem?_eq_none (show f.atomvals.length ≤ k by omega)]; rfl
  · have h0 : f.valency ≠ 0 := by rw [← hl]; simpa using hne
    apply (vals_spec h hl h0).2
    intro hp
    obtain ⟨z, hz1, hz2⟩ := (hmem k).1 (hp.mem_iff.2 (List.mem_range.2 hk))
    have := hz z hz1
    omega
  · unfold Boolf.vals
    rw [if_pos (by rw [h0]; rfl), h0, if_pos (by rfl)]
    simp only [bind, Except.bind]
    have : makeAtompatternsList [] = .ok [] := rfl
    rw [this]
    unfold Boolf.valBinvs
    rw [h0]
    rfl

example : ∀ k : Nat, k < 2 → ∃ z ∈ ([-2, 0] : List Int), z = (k : Int) ∨ z = -(k : Int) - 1 := by decide

/-- **C69.** `val` with Binvs of different lengths: the first one gives the length of the result, the surplus entries of longer ones are ignored, and a shorter
one raises `IndexError`. -/
theorem C69_val_binvs_lengths (f : Boolf) (hf : Obj f) (b : Binv) (bs : List Binv) (hb : bs.length + 1 = f.valency) :
    ((∀ c ∈ bs, b.length ≤ c.length) → ∃ r, f.valBinvs (b :: bs) = .ok r ∧ r.length = b.length ∧
      ∀ (i : Nat) (v : List Bool), i < b.length → (b :: bs).map (·.vector[i]?) = v.map some → f.val (v.map fun b => (b.toNat : Int)) = r.getItem i) ∧
    ((∃ c ∈ bs, c.length < b.length) → f.valBinvs (b :: bs) = .error .indexError) ∧
    (∀ l : List Binv, l.length ≠ f.valency → f.valBinvs l = .error .sarityMismatch) := by
  have h := hf.good.toSound
  have h0 : f.valency ≠ 0 := by omega
  refine ⟨fun hl => ?_, fun ⟨c, hc, hlt⟩ => ?_, fun l hl => by unfold Boolf.valBinvs; rw [if_neg hl]⟩
  · obtain ⟨g, hg⟩ : ∃ g : Nat → Bool, g = fun i => f.root.vector.getD (valB ((b :: bs).map fun b => b.vector.getD i false)) false := ⟨_, rfl⟩
    have hle : ∀ c ∈ b :: bs, b.length ≤ c.length := by
      intro c hc
      rcases List.mem_cons.1 hc with rfl | hc
      · exact le_rfl
      · exact hl c hc
    refine ⟨⟨(List.range b.length).map g⟩, ?_, by simp [Binv.length], fun i v hi hv => ?_⟩
    · unfold Boolf.valBinvs
      rw [if_pos (by simpa using hb)]
      simp only
      rw [mapM_ok (g := g)]
      · simp only [bind, Except.bind]
        exact mk_list _
      · intro i hi
        rw [List.mem_range] at hi
        rw [mapM_ok (g := fun b : Binv => b.vector.getD i false)]
        · simp only [bind, Except.bind]
          rw [hg]
          exact val_spec h (by simpa using hb) h0
        · intro c hc
          have hic : i < c.length := Nat.lt_of_lt_of_le hi (hle c hc)
          rw [getItem_ok hic, List.getD_eq_getElem?_getD, List.getElem?_eq_getElem hic]; rfl
    · have hvl : v.length = f.valency := by
        have := congrArg List.length hv
        simp only [List.length_map, List.length_cons] at this
        omega
      rw [val_spec h hvl h0, getItem_ok (by simpa [Binv.length] using hi)]
      have e : ((b :: bs).map fun b => b.vector.getD i false) = v := by
        have h1 : ((b :: bs).map (·.vector[i]?)).map (fun o => o.getD false) = (v.map some).map (fun o => o.getD false) := by rw [hv]
        rw [List.map_map, List.map_map] at h1
        simpa [Function.comp_def, List.getD_eq_getElem?_getD] using h1
      simp [← e, hg]
  · unfold Boolf.valBinvs
    rw [if_pos (by simpa using hb)]
    simp only
    have herr : ∀ i, ∀ d : Binv, (∃ y, d.getItem i = .ok y) ∨ d.getItem i = .error .indexError := by
      intro i d
      unfold Binv.getItem
      cases d.vector[i]? <;> simp
    have : ((List.range b.length).mapM fun i : Nat => ((b :: bs).mapM fun c : Binv => c.getItem i) >>= fun argsI : List Bool =>
        f.val (argsI.map fun x : Bool => (x.toNat : Int))) = .error .indexError := by
      apply P.mapM_error
      · intro i hi
        by_cases hall : ∀ d ∈ b :: bs, i < d.length
        · left
          rw [mapM_ok (g := fun b : Binv => b.vector.getD i false)]
          · simp only [bind, Except.bind]
            exact ⟨_, val_spec h (by simpa using hb) h0⟩
          · intro d hd
            have hic := hall d hd
            rw [getItem_ok hic, List.getD_eq_getElem?_getD, List.getElem?_eq_getElem hic]; rfl
        · right
          push Not at hall
          obtain ⟨d, hd, hd2⟩ := hall
          rw [P.mapM_error (e := .indexError) (fun x _ => herr i x) ⟨d, hd, by unfold Binv.getItem; rw [List.getElem?_eq_none hd2]⟩]
          rfl
      · refine ⟨c.length, List.mem_range.2 hlt, ?_⟩
        rw [P.mapM_error (e := .indexError) (fun x _ => herr c.length x)
          ⟨c, List.mem_cons_of_mem _ hc, by unfold Binv.getItem; rw [List.getElem?_eq_none (show c.vector.length ≤ c.length from le_rfl)]⟩]
        rfl
    rw [this]
    rfl

example : ∃ (f : Boolf) (b : Binv) (bs : List Binv), Obj f ∧ bs.length + 1 = f.valency ∧ ∃ c ∈ bs, c.length < b.length := by
  obtain ⟨f, _, _, _, f2, _, f3, _⟩ := two_ways
  exact ⟨f, ⟨[true, false]⟩, [⟨[true]⟩], f2.obj, by rw [f2.canon.val, f3]; rfl, ⟨[true]⟩, by simp, by decide⟩

end Verif.BF
