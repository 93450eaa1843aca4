import Verif.Boolf.Model25
import Verif.Boolf.Props11

/-!
# Property C149: pairs of named atoms, sorted by their relation
-/

namespace Verif.BF
open Verif.Py Verif.BV Verif.P Verif.W
open Verif.A hiding Mat

/-! ## specification -/

/-- The combinations of digits of two atoms that the function meets are exactly those in `m`. -/
def Rel (f : Boolf) (m : Bool → Bool → Bool) (x y : Nat) : Prop := ∀ i j, Meets f x y i j ↔ m i j = true

/-- all pairs of numbers below `n` with the smaller one first, in lexicographic order -/
def upperPairs (n : Nat) : List (Nat × Nat) := (List.range n).flatMap fun a => ((List.range n).filter (a < ·)).map fun b => (a, b)

/-- all pairs of different numbers below `n` -/
def differentPairs (n : Nat) : List (Nat × Nat) := ((List.range n).product (List.range n)).filter fun p => p.1 ≠ p.2

open Classical in
/-- those of the given pairs of places whose atoms are in the relation `m`, with names in place of places -/
noncomputable def relatedPairs (f : Boolf) (names : List Name) (m : Bool → Bool → Bool) (pairs : List (Nat × Nat)) : List (Name × Name) :=
  (pairs.filter fun p => Rel f m (f.atomvals.getD p.1 0) (f.atomvals.getD p.2 0)).map fun p => (names.getD p.1 (Name.num 0), names.getD p.2 (Name.num 0))

/-- the string of a relation: entry `i + 2 * j` for the digits `i` and `j` -/
def pattern (m : Bool → Bool → Bool) : List Char :=
  [m false false, m true false, m false true, m true true].map fun b => if b then '1' else '0'

/-- a list that is left out when it is empty -/
def unlessEmpty (l : List (Name × Name)) : Option (List (Name × Name)) := if l = [] then none else some l

def crossingRel : Bool → Bool → Bool := fun _ _ => true
def disjointRel : Bool → Bool → Bool := fun i j => !(i && j)
def universalRel : Bool → Bool → Bool := fun i j => i || j
def subsetRel : Bool → Bool → Bool := fun i j => !i || j
def supersetRel : Bool → Bool → Bool := fun i j => i || !j
def equalRel : Bool → Bool → Bool := fun i j => i == j
def complementaryRel : Bool → Bool → Bool := fun i j => i != j

/-- the relations that have a name, in one or the other direction -/
def namedRels : List (Bool → Bool → Bool) := [crossingRel, disjointRel, universalRel, subsetRel, supersetRel, equalRel, complementaryRel]

/-! ## lemmas -/

theorem pattern_inj {m m' : Bool → Bool → Bool} (h : pattern m = pattern m') : m = m' := by
  have hc : ∀ b c : Bool, (if b then '1' else '0') = (if c then '1' else '0') → b = c := by decide
  simp only [pattern, List.map_cons, List.map_nil, List.cons.injEq] at h
  obtain ⟨h1, h2, h3, h4, _⟩ := h
  funext i j
  cases i <;> cases j
  · exact hc _ _ h1
  · exact hc _ _ h3
  · exact hc _ _ h2
  · exact hc _ _ h4

theorem pairString_iff (f : Boolf) (x y : Nat) (m : Bool → Bool → Bool) : pairString f x y = pattern m ↔ Rel f m x y := by
  classical
  have e : pairString f x y = pattern fun i j => decide (Meets f x y i j) := by
    unfold pairString pattern
    simp only [List.map_cons, List.map_nil, decide_eq_true_eq]
  rw [e]
  constructor
  · intro h i j
    rw [← pattern_inj h, decide_eq_true_eq]
  · intro h
    congr 1
    funext i j
    rw [Bool.eq_iff_iff, decide_eq_true_eq]
    exact h i j

theorem exists_pattern (f : Boolf) (x y : Nat) : ∃ m, pairString f x y = pattern m := by
  classical
  exact ⟨fun i j => decide (Meets f x y i j), (pairString_iff f x y _).2 fun i j => by rw [decide_eq_true_eq]⟩

theorem upperPairs_eq (n : Nat) : upperPairs n = pairsBelow n := by
  unfold upperPairs pairsBelow
  congr 1
  funext a
  congr 1
  apply List.Perm.eq_of_pairwise (le := (· < ·)) (fun x y _ _ h1 h2 => absurd h1 (Nat.lt_asymm h2))
  · exact List.pairwise_lt_range.filter _
  · exact List.pairwise_lt_range'
  · rw [List.perm_ext_iff_of_nodup (List.nodup_range.filter _) List.nodup_range']
    intro b
    simp only [List.mem_filter, List.mem_range, decide_eq_true_eq, List.mem_range'_1]
    omega

/-- `l` under the patterns of `items` -/
def namedWith (names : List Name) (items : List ((Nat × Nat) × List Char)) (p : List Char) : List (Name × Name) :=
  (items.filter fun q => q.2 = p).map fun q => (names.getD q.1.1 (Name.num 0), names.getD q.1.2 (Name.num 0))

theorem item_getD {α : Type} {l : List α} {i : Nat} (h : i < l.length) (z : α) : item l i = .ok (l.getD i z) := by
  unfold item
  rw [List.getD_eq_getElem?_getD, List.getElem?_eq_getElem h]
  rfl

theorem get?_map_pairs {R : List (List Char)} (L : List Char → List (Name × Name)) {p : List Char} (h : p ∈ R) :
    Dict.get? (R.map fun q => (q, L q)) p = some (L p) := by
  induction R with
  | nil => cases h
  | cons r R ih =>
    rw [List.map_cons, Dict.get?_cons]
    by_cases e : r = p
    · rw [if_pos e, e]
    · rw [if_neg e]
      rcases List.mem_cons.1 h with h | h
      · exact absurd h.symm e
      · exact ih h

theorem set_map_pairs {R : List (List Char)} (hR : R.Nodup) (L : List Char → List (Name × Name)) {p : List Char} (h : p ∈ R) (l : List (Name × Name)) :
    Dict.set (R.map fun q => (q, L q)) p l = R.map fun q => (q, if q = p then l else L q) := by
  induction R with
  | nil => cases h
  | cons r R ih =>
    rw [List.nodup_cons] at hR
    rw [List.map_cons, List.map_cons]
    unfold Dict.set
    by_cases e : r = p
    · rw [if_pos e, if_pos e]
      congr 1
      apply List.map_congr_left
      intro q hq
      rw [if_neg (fun e' : q = p => hR.1 (e.trans e'.symm ▸ hq))]
    · rw [if_neg e, if_neg e]
      rcases List.mem_cons.1 h with h | h
      · exact absurd h.symm e
      · rw [ih hR.2 h]

theorem appendPairs_eq (names : List Name) {R : List (List Char)} (hR : R.Nodup) (items : List ((Nat × Nat) × List Char))
    (h1 : ∀ q ∈ items, q.1.1 < names.length ∧ q.1.2 < names.length ∧ q.2 ∈ R) (L : List Char → List (Name × Name)) :
    appendPairs names items (R.map fun p => (p, L p)) = .ok (R.map fun p => (p, L p ++ namedWith names items p)) := by
  induction items generalizing L with
  | nil => simp [appendPairs, namedWith]
  | cons q items ih =>
    obtain ⟨⟨a, b⟩, s⟩ := q
    obtain ⟨ha, hb, hs⟩ := h1 _ (List.mem_cons_self ..)
    simp only [appendPairs]
    rw [item_getD ha (Name.num 0), item_getD hb (Name.num 0)]
    simp only [bind, Except.bind]
    rw [get?_map_pairs L hs]
    simp only
    rw [set_map_pairs hR L hs, ih (fun q hq => h1 q (List.mem_cons_of_mem _ hq))]
    congr 1
    apply List.map_congr_left
    intro p _
    unfold namedWith
    by_cases e : p = s
    · subst e; simp
    · simp [e, Ne.symm e]

/-- the key of a pattern that is not one of the two for subsets -/
def wordOf (p : List Char) : List Char :=
  if p = "1111".toList then "crossing".toList
  else if p = "1110".toList then "disjoint".toList
  else if p = "0111".toList then "universal".toList
  else if p = "0110".toList then "complementary".toList
  else if p = "1001".toList then "equal".toList
  else p

/-- the pattern of a word -/
def patternOf (w : List Char) : List Char :=
  if w = "crossing".toList then "1111".toList
  else if w = "disjoint".toList then "1110".toList
  else if w = "universal".toList then "0111".toList
  else if w = "complementary".toList then "0110".toList
  else if w = "equal".toList then "1001".toList
  else w

theorem patternOf_wordOf {p : List Char} (h : p.length = 4) : patternOf (wordOf p) = p := by
  unfold wordOf
  split_ifs with h1 h2 h3 h4 h5
  · rw [h1]; decide
  · rw [h2]; decide
  · rw [h3]; decide
  · rw [h4]; decide
  · rw [h5]; decide
  · unfold patternOf
    have hn : ∀ w : List Char, w.length ≠ 4 → p ≠ w := fun w hw e => hw (e ▸ h)
    rw [if_neg (hn _ (by decide)), if_neg (hn _ (by decide)), if_neg (hn _ (by decide)), if_neg (hn _ (by decide)), if_neg (hn _ (by decide))]

theorem wordOf_ne_subset {p : List Char} (h : p.length = 4) : wordOf p ≠ "subset".toList := by
  intro e
  have := congrArg patternOf e
  rw [patternOf_wordOf h] at this
  rw [this] at h
  revert h
  decide

/-- a pattern for subsets, in one or the other direction -/
def isSub (p : List Char) : Bool := p = "1011".toList ∨ p = "1101".toList

/-- what a pattern adds to the subsets -/
def subs (L : List Char → List (Name × Name)) (p : List Char) : List (Name × Name) :=
  if p = "1011".toList then L p else if p = "1101".toList then (L p).map Prod.swap else []

theorem renamePatterns_eq (L : List Char → List (Name × Name)) (R : List (List Char)) (hR : R.Nodup) (h4 : ∀ p ∈ R, p.length = 4)
    (acc : Dict (List Char) (List (Name × Name))) (sub : List (Name × Name)) (hd : ∀ p ∈ R, wordOf p ∉ acc.keys) :
    renamePatterns (R.map fun p => (p, L p)) (acc, sub) =
      (acc ++ (R.filter fun p => !isSub p).map fun p => (wordOf p, L p), sub ++ R.flatMap (subs L)) := by
  induction R generalizing acc sub with
  | nil => simp [renamePatterns]
  | cons p R ih =>
    rw [List.nodup_cons] at hR
    have step : renamePatterns ((p :: R).map fun p => (p, L p)) (acc, sub) = renamePatterns (R.map fun p => (p, L p))
        (if isSub p then (acc, sub ++ subs L p) else (acc.set (wordOf p) (L p), sub)) := by
      rw [List.map_cons]
      conv_lhs => unfold renamePatterns
      congr 1
      unfold isSub wordOf subs
      by_cases e1 : p = "1011".toList
      · subst e1; simp
      · by_cases e2 : p = "1101".toList
        · subst e2; simp [Prod.swap]
        · simp only [e1, e2, if_false, or_self, decide_false, Bool.false_eq_true]
          split_ifs <;> rfl
    rw [step]
    have h4' := fun q hq => h4 q (List.mem_cons_of_mem _ hq)
    by_cases hs : isSub p
    · rw [if_pos hs, ih hR.2 h4' _ _ (fun q hq => hd q (List.mem_cons_of_mem _ hq))]
      simp [hs]
    · have hn : subs L p = [] := by
        unfold isSub at hs
        rw [decide_eq_true_eq] at hs
        unfold subs
        rw [if_neg (fun e => hs (Or.inl e)), if_neg (fun e => hs (Or.inr e))]
      rw [if_neg hs, Dict.set_of_not_mem _ (hd p (List.mem_cons_self ..)), ih hR.2 h4']
      · simp [hs, hn]
      · intro q hq hc
        rw [Dict.keys_append, List.mem_append] at hc
        rcases hc with hc | hc
        · exact hd q (List.mem_cons_of_mem _ hq) hc
        · simp only [Dict.keys_cons, Dict.keys_nil, List.mem_singleton] at hc
          have := congrArg patternOf hc
          rw [patternOf_wordOf (h4' q hq), patternOf_wordOf (h4 p (List.mem_cons_self ..))] at this
          exact hR.1 (this ▸ hq)

/-! ### the order of the keys -/

theorem wordsFirst_spec (pre : Dict (List Char) (List (Name × Name))) (ks : List (List Char)) (hk : ks.Nodup) (acc : Dict (List Char) (List (Name × Name)))
    (hd : ∀ k ∈ ks, k ∉ acc.keys) :
    (wordsFirst pre ks acc).keys = acc.keys ++ ks.filter (fun k => decide (k ∈ pre.keys)) ∧
    ∀ k, (wordsFirst pre ks acc).get? k = if k ∈ ks ∧ k ∈ pre.keys then pre.get? k else acc.get? k := by
  induction ks generalizing acc with
  | nil => simp [wordsFirst]
  | cons w ks ih =>
    rw [List.nodup_cons] at hk
    unfold wordsFirst
    have hw := hd w (List.mem_cons_self ..)
    cases hg : pre.get? w with
    | none =>
      have hp := Dict.get?_eq_none.1 hg
      obtain ⟨i1, i2⟩ := ih hk.2 acc (fun k hk => hd k (List.mem_cons_of_mem _ hk))
      refine ⟨by rw [i1, List.filter_cons_of_neg (by simpa using hp)], fun k => ?_⟩
      rw [i2 k]
      congr 1
      rw [List.mem_cons, eq_iff_iff]
      constructor
      · exact fun h => ⟨Or.inr h.1, h.2⟩
      · rintro ⟨rfl | h, h'⟩
        · exact absurd h' hp
        · exact ⟨h, h'⟩
    | some l =>
      have hp := Dict.mem_keys_iff.2 ⟨l, hg⟩
      simp only
      rw [Dict.set_of_not_mem _ hw]
      obtain ⟨i1, i2⟩ := ih hk.2 (acc ++ [(w, l)]) (by
        intro k hk' hc
        rw [Dict.keys_append, List.mem_append] at hc
        rcases hc with hc | hc
        · exact hd k (List.mem_cons_of_mem _ hk') hc
        · simp only [Dict.keys_cons, Dict.keys_nil, List.mem_singleton] at hc
          exact hk.1 (hc ▸ hk'))
      refine ⟨by rw [i1, Dict.keys_append, List.filter_cons_of_pos (by simpa using hp)]; simp, fun k => ?_⟩
      rw [i2 k, Dict.get?_append]
      by_cases hkw : k = w
      · subst hkw
        rw [if_neg (fun h => hk.1 h.1), if_pos ⟨List.mem_cons_self .., hp⟩, Dict.get?_eq_none.2 hw, hg, Dict.get?_cons, if_pos rfl]
        rfl
      · rw [Dict.get?_cons, if_neg (Ne.symm hkw), Dict.get?_nil, Option.or_none]
        simp only [List.mem_cons, hkw, false_or]

theorem othersLast_eq (pre acc : Dict (List Char) (List (Name × Name))) (hp : pre.keys.Nodup) (hd : ∀ k ∈ pre.keys, k ∉ keyWords → k ∉ acc.keys) :
    othersLast pre acc = acc ++ pre.filter fun q => decide (q.1 ∉ keyWords) := by
  induction pre generalizing acc with
  | nil => simp [othersLast]
  | cons q pre ih =>
    obtain ⟨w, l⟩ := q
    rw [Dict.keys_cons, List.nodup_cons] at hp
    unfold othersLast
    by_cases hw : w ∈ keyWords
    · rw [if_pos hw, ih acc hp.2 (fun k hk => hd k (by rw [Dict.keys_cons]; exact List.mem_cons_of_mem _ hk))]
      rw [List.filter_cons_of_neg (by simpa using hw)]
    · rw [if_neg hw, Dict.set_of_not_mem _ (hd w (by rw [Dict.keys_cons]; exact List.mem_cons_self ..) hw), ih _ hp.2]
      · rw [List.filter_cons_of_pos (by simpa using hw), List.append_assoc]; rfl
      · intro k hk hk' hc
        rw [Dict.keys_append, List.mem_append] at hc
        rcases hc with hc | hc
        · exact hd k (by rw [Dict.keys_cons]; exact List.mem_cons_of_mem _ hk) hk' hc
        · simp only [Dict.keys_cons, Dict.keys_nil, List.mem_singleton] at hc
          exact hp.1 (hc ▸ hk)

theorem get?_filter (pre : Dict (List Char) (List (Name × Name))) (P : List Char → Bool) (k : List Char) :
    Dict.get? (pre.filter fun q => P q.1) k = if P k then Dict.get? pre k else none := by
  induction pre with
  | nil => simp [Dict.get?_nil]
  | cons q pre ih =>
    by_cases hq : P q.1
    · rw [List.filter_cons_of_pos (p := fun q : List Char × List (Name × Name) => P q.1) hq, Dict.get?_cons, Dict.get?_cons, ih]
      by_cases e : q.1 = k
      · rw [if_pos e, if_pos e, ← e, if_pos hq]
      · rw [if_neg e, if_neg e]
    · rw [List.filter_cons_of_neg (p := fun q : List Char × List (Name × Name) => P q.1) hq, ih, Dict.get?_cons]
      by_cases e : q.1 = k
      · rw [← e, if_neg hq, if_neg hq]
      · rw [if_neg e]

/-- the last two loops only change the order of the keys -/
theorem wordOrder_spec (pre : Dict (List Char) (List (Name × Name))) (hp : pre.keys.Nodup) :
    (othersLast pre (wordsFirst pre keyWords [])).keys =
      keyWords.filter (fun k => decide (k ∈ pre.keys)) ++ pre.keys.filter (fun k => decide (k ∉ keyWords)) ∧
    ∀ k, (othersLast pre (wordsFirst pre keyWords [])).get? k = pre.get? k := by
  obtain ⟨w1, w2⟩ := wordsFirst_spec pre keyWords (by decide) [] (fun k _ => by simp)
  rw [Dict.keys_nil, List.nil_append] at w1
  have e := othersLast_eq pre (wordsFirst pre keyWords []) hp (by
    intro k _ hk hc
    rw [w1, List.mem_filter] at hc
    exact hk hc.1)
  rw [e]
  refine ⟨?_, fun k => ?_⟩
  · rw [Dict.keys_append, w1]
    congr 1
    unfold Dict.keys
    rw [List.filter_map]
    rfl
  · rw [Dict.get?_append, w2, get?_filter pre (fun k => decide (k ∉ keyWords))]
    by_cases hk : k ∈ keyWords
    · by_cases hk' : k ∈ pre.keys
      · rw [if_pos ⟨hk, hk'⟩, if_neg (by simpa using hk), Option.or_none]
      · rw [if_neg (fun h => hk' h.2), if_neg (by simpa using hk), Dict.get?_nil, Dict.get?_eq_none.2 hk']; rfl
    · rw [if_neg (fun h => hk h.1), if_pos (by simpa using hk), Dict.get?_nil]; rfl

theorem sortedColex_perm {α : Type} [LinearOrder α] (l : List (List α)) : (sortedColex l).Perm l := by
  unfold sortedColex
  have h := (List.perm_insertionSort (· ≤ ·) (l.map List.reverse)).map List.reverse
  rw [List.map_map, show (List.reverse ∘ List.reverse : List α → List α) = id from funext List.reverse_reverse, List.map_id] at h
  exact h

theorem sortedColex_pairwise {α : Type} [LinearOrder α] (l : List (List α)) : (sortedColex l).Pairwise fun s t => s.reverse ≤ t.reverse := by
  unfold sortedColex
  rw [List.pairwise_map]
  simp only [List.reverse_reverse]
  exact List.pairwise_insertionSort (· ≤ ·) _

theorem flatMap_two {α β : Type} [DecidableEq α] (g : α → List β) (p q : α) (hpq : p ≠ q) (hg : ∀ r, r ≠ p → r ≠ q → g r = []) (R : List α) (hR : R.Nodup)
    (hp : p ∉ R → g p = []) (hq : q ∉ R → g q = []) : (R.flatMap g).Perm (g p ++ g q) := by
  have key : ∀ R : List α, R.Nodup → (R.flatMap g).Perm ((if p ∈ R then g p else []) ++ if q ∈ R then g q else []) := by
    intro R hR
    induction R with
    | nil => simp
    | cons r R ih =>
      rw [List.nodup_cons] at hR
      rw [List.flatMap_cons]
      have i := ih hR.2
      by_cases e1 : r = p
      · subst e1
        rw [if_neg hR.1, List.nil_append] at i
        rw [if_pos (List.mem_cons_self ..)]
        simp only [List.mem_cons, hpq.symm, false_or]
        exact i.append_left _
      · by_cases e2 : r = q
        · subst e2
          rw [if_neg hR.1, List.append_nil] at i
          rw [if_pos (List.mem_cons_self ..)]
          simp only [List.mem_cons, hpq, false_or]
          exact (i.append_left _).trans List.perm_append_comm
        · rw [hg r e1 e2, List.nil_append]
          simp only [List.mem_cons, Ne.symm e1, Ne.symm e2, false_or]
          exact i
  have h := key R hR
  by_cases h1 : p ∈ R <;> by_cases h2 : q ∈ R <;> simp only [h1, h2, if_true, if_false] at h
  · exact h
  · rw [hq h2]; exact h
  · rw [hp h1]; exact h
  · rw [hp h1, hq h2]; exact h

theorem sortPairs_perm (l : List (Name × Name)) : (sortPairs l).Perm l := by
  unfold sortPairs
  have h := (List.perm_insertionSort (· ≤ ·) (l.map toLex)).map ofLex
  rw [List.map_map, show (ofLex ∘ toLex : Name × Name → Name × Name) = id from rfl, List.map_id] at h
  exact h

theorem sortPairs_pairwise (l : List (Name × Name)) : (sortPairs l).Pairwise fun p q => p.1 < q.1 ∨ p.1 = q.1 ∧ p.2 ≤ q.2 := by
  unfold sortPairs
  rw [List.pairwise_map]
  refine (List.pairwise_insertionSort (· ≤ ·) (l.map toLex)).imp fun {a b} h => ?_
  exact Prod.Lex.le_iff.1 h

theorem patterns_named : pattern crossingRel = "1111".toList ∧ pattern disjointRel = "1110".toList ∧ pattern universalRel = "0111".toList ∧
    pattern subsetRel = "1011".toList ∧ pattern supersetRel = "1101".toList ∧ pattern equalRel = "1001".toList ∧ pattern complementaryRel = "0110".toList := by
  decide

theorem pattern_length (m : Bool → Bool → Bool) : (pattern m).length = 4 := rfl

theorem isSub_pattern (m : Bool → Bool → Bool) : isSub (pattern m) = true ↔ m = subsetRel ∨ m = supersetRel := by
  obtain ⟨_, _, _, h1, h2, _⟩ := patterns_named
  unfold isSub
  rw [decide_eq_true_eq, ← h1, ← h2]
  exact ⟨fun h => h.imp pattern_inj pattern_inj, fun h => h.imp (congrArg _) (congrArg _)⟩

theorem wordOf_other {m : Bool → Bool → Bool} (h : m ∉ namedRels) : wordOf (pattern m) = pattern m := by
  obtain ⟨h1, h2, h3, _, _, h6, h7⟩ := patterns_named
  simp only [namedRels, List.mem_cons, List.not_mem_nil, or_false, not_or] at h
  unfold wordOf
  rw [← h1, ← h2, ← h3, ← h6, ← h7, if_neg (fun e => h.1 (pattern_inj e)), if_neg (fun e => h.2.1 (pattern_inj e)), if_neg (fun e => h.2.2.1 (pattern_inj e)),
    if_neg (fun e => h.2.2.2.2.2.2 (pattern_inj e)), if_neg (fun e => h.2.2.2.2.2.1 (pattern_inj e))]

/-- places of atoms in the relation, from the items of `filtrated_pairs` -/
theorem namedWith_eq (f : Boolf) (names : List Name) (m : Bool → Bool → Bool) (pairs : List (Nat × Nat)) :
    namedWith names (pairs.map fun p => (p, pairString f (f.atomvals.getD p.1 0) (f.atomvals.getD p.2 0))) (pattern m) = relatedPairs f names m pairs := by
  classical
  unfold namedWith relatedPairs
  rw [List.filter_map, List.map_map]
  congr 1
  apply List.filter_congr
  intro p _
  simp only [Function.comp, decide_eq_decide]
  exact pairString_iff ..

theorem Rel.swap {f : Boolf} {x y : Nat} : Rel f supersetRel x y ↔ Rel f subsetRel y x := by
  unfold Rel
  constructor
  · intro h i j
    rw [Meets.swap, h j i]
    cases i <;> cases j <;> decide
  · intro h i j
    rw [Meets.swap, h j i]
    cases i <;> cases j <;> decide

theorem differentPairs_perm (n : Nat) : (differentPairs n).Perm (pairsBelow n ++ (pairsBelow n).map Prod.swap) := by
  have h1 : (differentPairs n).Nodup := (List.nodup_range.product List.nodup_range).filter _
  have h2 : (pairsBelow n ++ (pairsBelow n).map Prod.swap).Nodup := by
    rw [List.nodup_append]
    refine ⟨pairsBelow_nodup n, (pairsBelow_nodup n).map Prod.swap_injective, ?_⟩
    rintro ⟨a, b⟩ ha _ hb rfl
    obtain ⟨⟨c, d⟩, hc, e⟩ := List.mem_map.1 hb
    rw [mem_pairsBelow] at ha hc
    simp only [Prod.swap, Prod.mk.injEq] at e
    omega
  rw [List.perm_ext_iff_of_nodup h1 h2]
  rintro ⟨a, b⟩
  rw [List.mem_append, mem_pairsBelow]
  unfold differentPairs
  simp only [List.mem_filter, List.pair_mem_product, List.mem_range, ne_eq, decide_eq_true_eq, List.mem_map, Prod.exists, mem_pairsBelow, Prod.swap,
    Prod.mk.injEq]
  constructor
  · rintro ⟨⟨h1, h2⟩, h3⟩
    rcases Nat.lt_or_gt_of_ne h3 with h | h
    · exact Or.inl ⟨h, h2⟩
    · exact Or.inr ⟨b, a, ⟨h, h1⟩, rfl, rfl⟩
  · rintro (⟨h1, h2⟩ | ⟨c, d, ⟨h1, h2⟩, rfl, rfl⟩) <;> omega

theorem relatedPairs_subset (f : Boolf) (names : List Name) (n : Nat) :
    (relatedPairs f names subsetRel (pairsBelow n) ++ (relatedPairs f names supersetRel (pairsBelow n)).map Prod.swap).Perm (relatedPairs f names subsetRel (differentPairs n)) := by
  classical
  have h : relatedPairs f names subsetRel (pairsBelow n) ++ (relatedPairs f names supersetRel (pairsBelow n)).map Prod.swap =
      relatedPairs f names subsetRel (pairsBelow n ++ (pairsBelow n).map Prod.swap) := by
    unfold relatedPairs
    rw [List.filter_append, List.map_append, List.filter_map, List.map_map, List.map_map]
    congr 1
    rw [List.filter_congr (q := (fun p : Nat × Nat => decide (Rel f subsetRel (f.atomvals.getD p.1 0) (f.atomvals.getD p.2 0))) ∘ Prod.swap)]
    · rfl
    · intro p _
      simp only [Function.comp, decide_eq_decide, Prod.fst_swap, Prod.snd_swap]
      exact Rel.swap
  rw [h]
  unfold relatedPairs
  exact ((differentPairs_perm n).symm.filter _).map _

/-! ## the property -/

/-- **C149.** `filtrated_pairs_pretty(atomnames)` for a list of names with as many different entries as the function has atoms.  Each pair of atoms is listed
under the word for its relation, in the order of their places.  Pairs with another relation are listed under the string of the relation.  The pairs for `subset`
are in the direction from subset to superset, and sorted.  Empty lists are left out.  The words come first and in a fixed order, followed by the strings in
colexicographic order. -/
theorem C149_pairs (f : Boolf) (hf : Obj f) (names : List Name) (hn : names.dedup.length = f.atomvals.length) :
    ∃ d, f.filtratedPairsPretty (some names) = .ok d ∧
      d.get? "crossing".toList = unlessEmpty (relatedPairs f names crossingRel (upperPairs f.atomvals.length)) ∧
      d.get? "disjoint".toList = unlessEmpty (relatedPairs f names disjointRel (upperPairs f.atomvals.length)) ∧
      d.get? "universal".toList = unlessEmpty (relatedPairs f names universalRel (upperPairs f.atomvals.length)) ∧
      d.get? "equal".toList = unlessEmpty (relatedPairs f names equalRel (upperPairs f.atomvals.length)) ∧
      d.get? "complementary".toList = unlessEmpty (relatedPairs f names complementaryRel (upperPairs f.atomvals.length)) ∧
      (∃ l, d.get? "subset".toList = unlessEmpty l ∧ l.Perm (relatedPairs f names subsetRel (differentPairs f.atomvals.length)) ∧
        l.Pairwise fun p q => p.1 < q.1 ∨ p.1 = q.1 ∧ p.2 ≤ q.2) ∧
      (∀ m, m ∉ namedRels → d.get? (pattern m) = unlessEmpty (relatedPairs f names m (upperPairs f.atomvals.length))) ∧
      ∃ words strings, d.keys = words ++ strings ∧
        words.Sublist ["crossing".toList, "disjoint".toList, "universal".toList, "subset".toList, "equal".toList, "complementary".toList] ∧
        (∀ s ∈ strings, ∃ m, m ∉ namedRels ∧ s = pattern m) ∧ strings.Pairwise fun s t => s.reverse < t.reverse := by
  have hs := hf.good.toSound
  rw [upperPairs_eq]
  set n := f.atomvals.length with hn'
  have hlen : n ≤ names.length := hn ▸ (List.dedup_sublist names).length_le
  set items : Dict (Nat × Nat) (List Char) := (pairsBelow n).map fun p => (p, pairString f (f.atomvals.getD p.1 0) (f.atomvals.getD p.2 0)) with hi
  set R := sortedColex items.values.dedup with hR
  have hRp : R.Perm items.values.dedup := sortedColex_perm _
  have hRn : R.Nodup := hRp.nodup_iff.2 (List.nodup_dedup _)
  have hRm : ∀ p, p ∈ R ↔ ∃ q ∈ items, q.2 = p := fun p => by
    rw [hRp.mem_iff, List.mem_dedup]
    unfold Dict.values
    rw [List.mem_map]
  have hRpat : ∀ p ∈ R, ∃ m, p = pattern m := by
    intro p hp
    obtain ⟨q, hq, e⟩ := (hRm p).1 hp
    rw [hi] at hq
    obtain ⟨r, _, rfl⟩ := List.mem_map.1 hq
    obtain ⟨m, hm⟩ := exists_pattern f (f.atomvals.getD r.1 0) (f.atomvals.getD r.2 0)
    exact ⟨m, e.symm.trans hm⟩
  have hR4 : ∀ p ∈ R, p.length = 4 := fun p hp => by
    obtain ⟨m, rfl⟩ := hRpat p hp
    rfl
  set L := namedWith names items with hL
  have hLR : ∀ p, p ∈ R ↔ L p ≠ [] := by
    intro p
    rw [hRm, hL]
    unfold namedWith
    rw [Ne, List.map_eq_nil_iff, List.filter_eq_nil_iff]
    push Not
    simp only [decide_eq_true_eq]
  have hLm : ∀ m, L (pattern m) = relatedPairs f names m (pairsBelow n) := fun m => namedWith_eq f names m _
  set A : Dict (List Char) (List (Name × Name)) := (R.filter fun p => !isSub p).map fun p => (wordOf p, L p) with hA
  have hAk : A.keys = (R.filter fun p => !isSub p).map wordOf := by
    rw [hA]; unfold Dict.keys; rw [List.map_map]; rfl
  have hAn : A.keys.Nodup := by
    rw [hAk]
    refine List.Nodup.map_on ?_ (hRn.filter _)
    intro p hp q hq e
    have := congrArg patternOf e
    rwa [patternOf_wordOf (hR4 p (List.mem_filter.1 hp).1), patternOf_wordOf (hR4 q (List.mem_filter.1 hq).1)] at this
  have hAs : "subset".toList ∉ A.keys := by
    rw [hAk]
    intro hc
    obtain ⟨p, hp, e⟩ := List.mem_map.1 hc
    exact wordOf_ne_subset (hR4 p (List.mem_filter.1 hp).1) e
  set S := R.flatMap (subs L) with hS
  set pre : Dict (List Char) (List (Name × Name)) := if S = [] then A else A.set "subset".toList (sortPairs S) with hpre
  have hpre' : pre = A ++ if S = [] then [] else [("subset".toList, sortPairs S)] := by
    rw [hpre]
    split
    · rw [List.append_nil]
    · exact Dict.set_of_not_mem _ hAs
  have hpn : pre.keys.Nodup := by
    rw [hpre]
    split
    · exact hAn
    · exact Dict.nodup_keys_set hAn _ _
  have hrun : f.filtratedPairsPretty (some names) = .ok (othersLast pre (wordsFirst pre keyWords [])) := by
    have hi2 : (items : List ((Nat × Nat) × List Char)) = items := rfl
    unfold Boolf.filtratedPairsPretty Boolf.chooseNames
    rw [pairs_eq hs]
    simp only [bind, Except.bind]
    rw [hs.val, if_pos hn]
    simp only
    rw [← hn', ← hi]
    unfold prettyPairs
    dsimp only
    rw [← hR, Dict.ofPairs_of_nodup (by
      unfold Dict.keys
      rw [List.map_map]
      exact (List.map_id R).symm ▸ hRn)]
    have ha := appendPairs_eq names hRn items (by
      intro q hq
      refine ⟨?_, ?_, (hRm q.2).2 ⟨q, hq, rfl⟩⟩ <;>
      · rw [hi] at hq
        obtain ⟨⟨a, b⟩, hr, rfl⟩ := List.mem_map.1 hq
        have := mem_pairsBelow.1 hr
        simp only
        omega) (fun _ => [])
    simp only [List.nil_append] at ha
    rw [ha]
    simp only [bind, Except.bind, pure, Except.pure]
    rw [renamePatterns_eq L R hRn hR4 [] [] (fun p _ => by simp)]
    simp only [List.nil_append]
    rfl
  obtain ⟨k1, k2⟩ := wordOrder_spec pre hpn
  -- the entry of a pattern that is not one of the two for subsets
  have hget : ∀ m, isSub (pattern m) = false → pre.get? (wordOf (pattern m)) = unlessEmpty (relatedPairs f names m (pairsBelow n)) := by
    intro m hm
    have hno : Dict.get? (if S = [] then ([] : Dict (List Char) (List (Name × Name))) else [("subset".toList, sortPairs S)]) (wordOf (pattern m)) = none := by
      split
      · rfl
      · rw [Dict.get?_cons, if_neg (Ne.symm (wordOf_ne_subset (pattern_length m))), Dict.get?_nil]
    rw [hpre', Dict.get?_append, hno, Option.or_none, ← hLm]
    unfold unlessEmpty
    by_cases hp : pattern m ∈ R
    · rw [if_neg ((hLR _).1 hp), Dict.get?_iff_mem hAn, hA]
      exact List.mem_map.2 ⟨pattern m, List.mem_filter.2 ⟨hp, by rw [hm]; rfl⟩, rfl⟩
    · rw [if_pos (not_not.1 fun h => hp ((hLR _).2 h)), Dict.get?_eq_none, hAk]
      intro hc
      obtain ⟨p, hq, e⟩ := List.mem_map.1 hc
      have hq' := (List.mem_filter.1 hq).1
      have := congrArg patternOf e
      rw [patternOf_wordOf (hR4 p hq'), patternOf_wordOf (pattern_length m)] at this
      exact hp (this ▸ hq')
  obtain ⟨e1, e2, e3, e4, e5, e6, e7⟩ := patterns_named
  refine ⟨_, hrun, ?_, ?_, ?_, ?_, ?_, ⟨sortPairs S, ?_, ?_, sortPairs_pairwise S⟩, ?_, ?_⟩
  · rw [k2]
    have := hget crossingRel (by decide)
    rw [e1] at this
    exact this
  · rw [k2]
    have := hget disjointRel (by decide)
    rw [e2] at this
    exact this
  · rw [k2]
    have := hget universalRel (by decide)
    rw [e3] at this
    exact this
  · rw [k2]
    have := hget equalRel (by decide)
    rw [e6] at this
    exact this
  · rw [k2]
    have := hget complementaryRel (by decide)
    rw [e7] at this
    exact this
  · rw [k2, hpre', Dict.get?_append, Dict.get?_eq_none.2 hAs, Option.none_or]
    unfold unlessEmpty
    by_cases hS0 : S = []
    · rw [if_pos hS0, if_pos (by rw [hS0]; rfl), Dict.get?_nil]
    · rw [if_neg hS0, if_neg (fun h : sortPairs S = [] => hS0 (List.Perm.eq_nil (h ▸ (sortPairs_perm S).symm))), Dict.get?_cons, if_pos rfl]
  · refine (sortPairs_perm S).trans ?_
    have hf2 := flatMap_two (subs L) "1011".toList "1101".toList (by decide) (fun r h1 h2 => by unfold subs; rw [if_neg h1, if_neg h2]) R hRn
      (fun h => by unfold subs; rw [if_pos rfl]; exact not_not.1 fun h' => h ((hLR _).2 h'))
      (fun h => by
        unfold subs
        rw [if_neg (by decide), if_pos rfl, not_not.1 fun h' => h ((hLR _).2 h')]
        rfl)
    refine hf2.trans ?_
    have s1 : subs L "1011".toList = relatedPairs f names subsetRel (pairsBelow n) := by
      unfold subs
      rw [if_pos rfl, ← e4, hLm]
    have s2 : subs L "1101".toList = (relatedPairs f names supersetRel (pairsBelow n)).map Prod.swap := by
      unfold subs
      rw [if_neg (by decide), if_pos rfl, ← e5, hLm]
    rw [s1, s2]
    exact relatedPairs_subset f names n
  · intro m hm
    rw [k2]
    have hb : isSub (pattern m) = false := by
      rw [Bool.eq_false_iff, Ne, isSub_pattern]
      rintro (h | h) <;> exact hm (by simp [namedRels, h])
    have := hget m hb
    rw [wordOf_other hm] at this
    exact this
  · refine ⟨_, _, k1, List.filter_sublist, ?_, ?_⟩
    · intro s hs'
      obtain ⟨h1, h2⟩ := List.mem_filter.1 hs'
      rw [decide_eq_true_eq] at h2
      rw [hpre', Dict.keys_append, List.mem_append] at h1
      rcases h1 with h1 | h1
      · rw [hAk] at h1
        obtain ⟨p, hp, rfl⟩ := List.mem_map.1 h1
        obtain ⟨hp1, hp2⟩ := List.mem_filter.1 hp
        obtain ⟨m, rfl⟩ := hRpat p hp1
        have hmn : m ∉ namedRels := by
          intro hm
          simp only [namedRels, List.mem_cons, List.not_mem_nil, or_false] at hm
          rcases hm with rfl | rfl | rfl | rfl | rfl | rfl | rfl
          · exact h2 (by decide)
          · exact h2 (by decide)
          · exact h2 (by decide)
          · revert hp2; decide
          · revert hp2; decide
          · exact h2 (by decide)
          · exact h2 (by decide)
        exact ⟨m, hmn, wordOf_other hmn⟩
      · exfalso
        split at h1
        · cases h1
        · simp only [Dict.keys_cons, Dict.keys_nil, List.mem_singleton] at h1
          exact h2 (h1 ▸ by decide)
    · -- strings: those of `R` in this order
      have hsub : (pre.keys.filter fun k => decide (k ∉ keyWords)).Sublist R := by
        have h1 : (Dict.keys (if S = [] then ([] : Dict (List Char) (List (Name × Name))) else [("subset".toList, sortPairs S)])).filter (fun k => decide (k ∉ keyWords)) = [] := by
          split
          · rfl
          · simp only [Dict.keys_cons, Dict.keys_nil]
            rw [List.filter_cons_of_neg (by decide)]
            rfl
        rw [hpre', Dict.keys_append, List.filter_append, h1, List.append_nil, hAk, List.filter_map]
        have h2 : ((R.filter fun p => !isSub p).filter ((fun k => decide (k ∉ keyWords)) ∘ wordOf)).map wordOf =
            (R.filter fun p => !isSub p).filter ((fun k => decide (k ∉ keyWords)) ∘ wordOf) := by
          conv_rhs => rw [← List.map_id ((R.filter fun p => !isSub p).filter ((fun k => decide (k ∉ keyWords)) ∘ wordOf))]
          apply List.map_congr_left
          intro p hp
          have hw := (List.mem_filter.1 hp).2
          simp only [Function.comp, decide_eq_true_eq] at hw
          unfold wordOf at hw ⊢
          split_ifs at hw ⊢ with c1 c2 c3 c4 c5
          · exact absurd (by decide) hw
          · exact absurd (by decide) hw
          · exact absurd (by decide) hw
          · exact absurd (by decide) hw
          · exact absurd (by decide) hw
          · rfl
        rw [h2]
        exact List.filter_sublist.trans List.filter_sublist
      refine List.Pairwise.sublist hsub ?_
      have hle : R.Pairwise fun s t => s.reverse ≤ t.reverse := sortedColex_pairwise _
      exact (hle.and hRn).imp fun {a b} h => lt_of_le_of_ne h.1 fun e => h.2 (List.reverse_injective e)

/-- **C149.** A list with another number of different names is rejected. -/
theorem C149_mismatch (f : Boolf) (hf : Obj f) (names : List Name) (hn : names.dedup.length ≠ f.atomvals.length) :
    f.filtratedPairsPretty (some names) = .error .argMismatch := by
  unfold Boolf.filtratedPairsPretty Boolf.chooseNames
  simp only
  rw [hf.good.toSound.val, if_neg hn]
  rfl

theorem foldl_max_lt (l : List Int) (x b : Int) : l.foldl max x < b ↔ x < b ∧ ∀ y ∈ l, y < b := by
  induction l generalizing x with
  | nil => simp
  | cons y l ih =>
    rw [List.foldl_cons, ih, max_lt_iff, List.forall_mem_cons, and_assoc]

/-- **C149.** `alphabet_subset` of natural numbers: the letters at these places of the alphabet, if there are enough letters, and otherwise the numbers
themselves. -/
theorem C149_alphabet (l : List Nat) (hl : l ≠ []) :
    ((∀ i ∈ l, i < 26) → alphabetSubset (l.map Int.ofNat) = .ok (l.map fun i => Name.str [Char.ofNat (65 + i)])) ∧
    ((∃ i ∈ l, 26 ≤ i) → alphabetSubset (l.map Int.ofNat) = .ok (l.map fun i : Nat => Name.num i)) := by
  have hletter : ∀ i, i < 26 → letterAt (Int.ofNat i) = .ok (Name.str [Char.ofNat (65 + i)]) := by
    intro i hi
    unfold letterAt
    have h0 : ¬ (Int.ofNat i < 0) := by simp
    dsimp only
    rw [if_neg h0, if_pos (by simp)]
    have hc : ∀ i < 26, item alphabet i = .ok (Char.ofNat (65 + i)) := by decide
    rw [show (Int.ofNat i).toNat = i from rfl, hc i hi]
    rfl
  obtain ⟨x, xs, rfl⟩ := List.exists_cons_of_ne_nil hl
  have hiff : (xs.map Int.ofNat).foldl max (Int.ofNat x) < 26 ↔ ∀ i ∈ x :: xs, i < 26 := by
    rw [foldl_max_lt, List.forall_mem_cons, List.forall_mem_map]
    simp only [Int.ofNat_eq_natCast]
    constructor
    · rintro ⟨h1, h2⟩
      exact ⟨by omega, fun i hi => by have := h2 i hi; omega⟩
    · rintro ⟨h1, h2⟩
      exact ⟨by omega, fun i hi => by have := h2 i hi; omega⟩
  constructor
  · intro h
    simp only [alphabetSubset, List.map_cons]
    rw [if_pos (hiff.2 h), ← List.map_cons, ← List.map_cons (f := fun i => Name.str [Char.ofNat (65 + i)])]
    have key : ∀ l : List Nat, (∀ i ∈ l, i < 26) → (l.map Int.ofNat).mapM letterAt = .ok (l.map fun i => Name.str [Char.ofNat (65 + i)]) := by
      intro l hl
      induction l with
      | nil => rfl
      | cons y l ih =>
        rw [List.map_cons, List.mapM_cons, hletter y (hl y (List.mem_cons_self ..)), ih (fun i hi => hl i (List.mem_cons_of_mem _ hi))]
        rfl
    exact key _ h
  · rintro ⟨i, hi, h⟩
    simp only [alphabetSubset, List.map_cons]
    rw [if_neg (fun hc => absurd (hiff.1 hc i hi) (by omega))]
    simp only [List.map_map]
    rfl

/-- **C149.** Without an argument the names are the letters of the atoms, if all atoms are below 26, and otherwise the numbers of the atoms.  For the two constants
there is an exception, although they have no pairs of atoms. -/
theorem C149_default (f : Boolf) (hf : Obj f) :
    (f.atomvals ≠ [] → (∀ x ∈ f.atomvals, x < 26) →
      f.filtratedPairsPretty none = f.filtratedPairsPretty (some (f.atomvals.map fun x => Name.str [Char.ofNat (65 + x)]))) ∧
    ((∃ x ∈ f.atomvals, 26 ≤ x) → f.filtratedPairsPretty none = f.filtratedPairsPretty (some (f.atomvals.map fun x : Nat => Name.num x))) ∧
    (f.atomvals = [] → f.filtratedPairsPretty none = .error .valueError ∧ f.filtratedPairsPretty (some []) = .ok []) := by
  have hs := hf.good.toSound
  have hnd : f.atomvals.Nodup := hs.asc.imp fun h => Nat.ne_of_lt h
  refine ⟨fun h0 h => ?_, fun h => ?_, fun h => ⟨?_, ?_⟩⟩
  · have hn : (f.atomvals.map fun x => Name.str [Char.ofNat (65 + x)]).dedup.length = f.valency := by
      rw [List.Nodup.dedup, List.length_map, hs.val]
      refine List.Nodup.map_on ?_ hnd
      intro x hx y hy e
      have hc : ∀ x < 26, ∀ y < 26, Char.ofNat (65 + x) = Char.ofNat (65 + y) → x = y := by decide +kernel
      refine hc x (h x hx) y (h y hy) ?_
      unfold Name.str at e
      simpa using e
    unfold Boolf.filtratedPairsPretty Boolf.chooseNames
    simp only
    rw [(C149_alphabet f.atomvals h0).1 h, if_pos hn]
  · have h0 : f.atomvals ≠ [] := by
      obtain ⟨x, hx, _⟩ := h
      exact List.ne_nil_of_mem hx
    have hn : (f.atomvals.map fun x : Nat => Name.num x).dedup.length = f.valency := by
      rw [List.Nodup.dedup, List.length_map, hs.val]
      refine List.Nodup.map_on ?_ hnd
      intro x hx y hy e
      unfold Name.num at e
      simpa using e
    unfold Boolf.filtratedPairsPretty Boolf.chooseNames
    simp only
    rw [(C149_alphabet f.atomvals h0).2 h, if_pos hn]
  · unfold Boolf.filtratedPairsPretty Boolf.chooseNames
    rw [h]
    rfl
  · unfold Boolf.filtratedPairsPretty Boolf.chooseNames
    rw [pairs_eq hs, hs.val, h]
    rfl

/-- the function of `Boolf('1011')`: atom 0 is a subset of atom 1 -/
theorem implication_rel : ∃ f, newTT (.list [1, 0, 1, 1]) = .ok f ∧ f.atomvals = [0, 1] ∧ Obj f ∧ Rel f subsetRel 0 1 := by
  have h : newTT (.list [1, 0, 1, 1]) = .ok { atomvals := [0, 1], root := ⟨[true, false, true, true]⟩, adicity := 2, valency := 2 } := by decide
  have hs := (reach_newTT h).canon.toSound
  refine ⟨_, h, rfl, (reach_newTT h).obj, ?_⟩
  intro i j
  rw [meets_below hs (by decide) (by decide)]
  cases i <;> cases j <;> decide

theorem implication_related {f : Boolf} (ha : f.atomvals = [0, 1]) (hr : Rel f subsetRel 0 1) (names : List Name) :
    relatedPairs f names subsetRel (differentPairs f.atomvals.length) = [(names.getD 0 (Name.num 0), names.getD 1 (Name.num 0))] := by
  classical
  have hr' : ¬ Rel f subsetRel 1 0 := by
    intro hc
    have h1 := (hr false true).2 rfl
    exact absurd ((hc true false).1 (Meets.swap.2 h1)) (by decide)
  unfold relatedPairs
  rw [ha, show differentPairs [0, 1].length = [(0, 1), (1, 0)] from by decide]
  simp [hr, hr']

/-- hypotheses and result for a function of two atoms: the only pair is listed under `subset` -/
theorem implication_subset {f : Boolf} (hf : Obj f) (ha : f.atomvals = [0, 1]) (hr : Rel f subsetRel 0 1) (names : List Name) (hn : names.dedup.length = 2) :
    ∃ d, f.filtratedPairsPretty (some names) = .ok d ∧ d.get? "subset".toList = some [(names.getD 0 (Name.num 0), names.getD 1 (Name.num 0))] := by
  obtain ⟨d, d1, _, _, _, _, _, ⟨l, l1, l2, _⟩, _⟩ := C149_pairs f hf names (by rw [hn, ha]; rfl)
  rw [implication_related ha hr, List.perm_singleton] at l2
  refine ⟨d, d1, ?_⟩
  rw [l1, l2]
  rfl

/-- `Boolf('1011').filtrated_pairs_pretty()` has the pair A, B under `subset`. -/
example : ∃ f d, newTT (.list [1, 0, 1, 1]) = .ok f ∧ f.filtratedPairsPretty none = .ok d ∧
    d.get? "subset".toList = some [(Name.str ['A'], Name.str ['B'])] := by
  obtain ⟨f, h, ha, hf, hr⟩ := implication_rel
  obtain ⟨d, d1, d2⟩ := implication_subset hf ha hr [Name.str ['A'], Name.str ['B']] (by decide)
  refine ⟨f, d, h, ?_, d2⟩
  rw [(C149_default f hf).1 (by rw [ha]; decide) (by rw [ha]; decide), ha]
  exact d1

/-- **C149.** The names need not be unique, although the documentation says so: with the names A, A, B the atoms of `Boolf('1011')` have the same name. -/
theorem C149_repeated_names : ∃ f d, newTT (.list [1, 0, 1, 1]) = .ok f ∧ f.atomvals = [0, 1] ∧
    f.filtratedPairsPretty (some [Name.str ['A'], Name.str ['A'], Name.str ['B']]) = .ok d ∧
    d.get? "subset".toList = some [(Name.str ['A'], Name.str ['A'])] := by
  obtain ⟨f, h, ha, hf, hr⟩ := implication_rel
  obtain ⟨d, d1, d2⟩ := implication_subset hf ha hr [Name.str ['A'], Name.str ['A'], Name.str ['B']] (by decide)
  exact ⟨f, d, h, ha, d1, d2⟩

/-- a list of names that is too short -/
example : ∃ f, newTT (.list [1, 0, 1, 1]) = .ok f ∧ f.filtratedPairsPretty (some [Name.str ['A'], Name.str ['A']]) = .error .argMismatch := by
  obtain ⟨f, h, ha, hf, _⟩ := implication_rel
  exact ⟨f, h, C149_mismatch f hf _ (by rw [ha]; decide)⟩

example : alphabetSubset [0, 2, 25] = .ok [Name.str ['A'], Name.str ['C'], Name.str ['Z']] := (C149_alphabet [0, 2, 25] (by decide)).1 (by decide)

example : alphabetSubset [0, 26] = .ok [Name.num 0, Name.num 26] := (C149_alphabet [0, 26] (by decide)).2 ⟨26, by decide, by decide⟩

/-- a relation without a name: the first atom is true throughout -/
example : (fun i _ => i) ∉ namedRels ∧ pattern (fun i _ => i) = "0101".toList := by
  refine ⟨?_, by decide⟩
  simp only [namedRels, List.mem_cons, List.not_mem_nil, or_false, not_or, funext_iff, crossingRel, disjointRel, universalRel, subsetRel, supersetRel, equalRel,
    complementaryRel]
  decide

end Verif.BF
