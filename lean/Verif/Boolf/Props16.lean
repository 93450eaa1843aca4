import Verif.Boolf.Props15

/-!
# C82: splits
-/

namespace Verif.BF
open Verif.Py Verif.BV Verif.P Verif.W
open Verif.A hiding Mat

/-! ### lists of spots -/

theorem asc_ext {l m : List Nat} (hl : l.Pairwise (· < ·)) (hm : m.Pairwise (· < ·)) (h : ∀ x, x ∈ l ↔ x ∈ m) : l = m := by
  have hp : l.Perm m := (List.perm_ext_iff_of_nodup (hl.imp (fun h => Nat.ne_of_lt h)) (hm.imp (fun h => Nat.ne_of_lt h))).2 h
  exact hp.eq_of_pairwise (fun a b _ _ h1 h2 => by omega) hl hm

/-- the two sides of the split by one atom -/
def splitOf (F : List Nat) (k : Nat) : List Nat × List Nat := (F.filter fun s => s.testBit k, F.filter fun s => !s.testBit k)

theorem spotintsToSplits_eq {F : List Nat} {n : Nat} (hF : F.Pairwise (· < ·)) (hlt : ∀ s ∈ F, s < 2 ^ n) :
    spotintsToSplits F n = .ok ((List.range n).map (splitOf F)) := by
  obtain ⟨b, b1, b2, b3⟩ := (C26_exposet F (2 ^ n)).1 hlt
  unfold spotintsToSplits
  rw [b1]
  show (List.range n).mapM _ = _
  apply mapM_ok
  intro k hk
  rw [List.mem_range] at hk
  have hinv : makeAtompattern (inv k) n = .ok ⟨(List.range (2 ^ n)).map fun i => !i.testBit k⟩ := by
    have h0 : logicAbs (inv k) = k := by unfold logicAbs inv; rw [if_pos (by omega)]; omega
    have := (atompattern_spec (inv k) n false).1 (by rw [h0]; omega)
    rw [this, h0]
    have h1 : inv (k : Int) < 0 := by unfold inv; omega
    simp [h1]
  have hb : b.vector.length = 2 ^ n := b2
  have hand : ∀ p : Nat → Bool, b.and ⟨(List.range (2 ^ n)).map p⟩ = .ok ⟨List.zipWith (· && ·) b.vector ((List.range (2 ^ n)).map p)⟩ := by
    intro p
    exact bitwise_eq _ _ _ (by simp [Binv.length, hb])
  have hexp : ∀ p : Nat → Bool, (⟨List.zipWith (· && ·) b.vector ((List.range (2 ^ n)).map p)⟩ : Binv).exposet = F.filter p := by
    intro p
    apply asc_ext (exposet_pairwise _) (hF.filter p)
    intro s
    rw [List.mem_filter, ← b3 s, mem_exposet, mem_exposet]
    show (List.zipWith (· && ·) b.vector ((List.range (2 ^ n)).map p))[s]? = some true ↔ _
    by_cases hs : s < 2 ^ n
    · rw [List.getElem?_zipWith, List.getElem?_map, List.getElem?_range hs, List.getElem?_eq_getElem (by omega)]
      simp
    · rw [List.getElem?_eq_none (by simp [hb]; omega), List.getElem?_eq_none (by omega)]
      simp
  rw [makeAtompattern_nat hk, hinv]
  simp only [bind, Except.bind, pure, Except.pure]
  have h1 : b.and (atomB n k) = _ := hand fun i => i.testBit k
  rw [h1]
  simp only
  rw [hand]
  simp only
  rw [hexp, hexp]
  rfl

theorem splits_eq {f : Boolf} (h : Sound f) : f.splits = .ok ((List.range f.valency).map (splitOf f.fullspots)) :=
  spotintsToSplits_eq (fullspots_asc f) (by rw [h.val]; exact fun s hs => fullspots_lt h hs)

theorem item_splits {n k : Nat} (F : List Nat) (hk : k < n) : item ((List.range n).map (splitOf F)) k = .ok (splitOf F k) := by
  apply item_ok
  rw [List.getElem?_map, List.getElem?_range hk]
  rfl

/-- some spot has the digits `p` and `q` at the places `a` and `b` -/
def has (F : List Nat) (a b : Nat) (p q : Bool) : Bool := F.any fun s => decide (s.testBit a = p) && decide (s.testBit b = q)

theorem has_iff {F : List Nat} {a b : Nat} {p q : Bool} : has F a b p q = true ↔ ∃ s ∈ F, s.testBit a = p ∧ s.testBit b = q := by
  unfold has
  rw [List.any_eq_true]
  simp

theorem has_inter (F : List Nat) (a b : Nat) :
    nonEmpty (inter (splitOf F a).1 (splitOf F b).1) = has F a b true true ∧ nonEmpty (inter (splitOf F a).1 (splitOf F b).2) = has F a b true false ∧
    nonEmpty (inter (splitOf F a).2 (splitOf F b).1) = has F a b false true ∧ nonEmpty (inter (splitOf F a).2 (splitOf F b).2) = has F a b false false := by
  have key : ∀ l m : List Nat, nonEmpty (inter l m) = true ↔ ∃ s, s ∈ l ∧ s ∈ m := by
    intro l m
    unfold nonEmpty inter
    rw [decide_eq_true_eq, ne_eq, List.filter_eq_nil_iff]
    push Not
    simp
  refine ⟨?_, ?_, ?_, ?_⟩ <;> rw [Bool.eq_iff_iff, key, has_iff] <;> unfold splitOf <;> simp only [List.mem_filter] <;>
    constructor <;> (rintro ⟨s, hs⟩; refine ⟨s, ?_⟩; simp_all)

theorem count_has (F : List Nat) (a b : Nat) : countSplitRegions (splitOf F a) (splitOf F b) =
    bsum [has F a b true true, has F a b true false, has F a b false true, has F a b false false] := by
  obtain ⟨h1, h2, h3, h4⟩ := has_inter F a b
  unfold countSplitRegions
  rw [h1, h2, h3, h4]

/-- some spot has the digit `p` at the place `a` -/
def has1 (F : List Nat) (a : Nat) (p : Bool) : Bool := F.any fun s => decide (s.testBit a = p)

theorem has1_iff {F : List Nat} {a : Nat} {p : Bool} : has1 F a p = true ↔ ∃ s ∈ F, s.testBit a = p := by
  unfold has1
  rw [List.any_eq_true]
  simp

theorem nonEmpty_side (F : List Nat) (a : Nat) : nonEmpty (splitOf F a).1 = has1 F a true ∧ nonEmpty (splitOf F a).2 = has1 F a false := by
  constructor <;> rw [Bool.eq_iff_iff, has1_iff] <;> unfold nonEmpty splitOf <;>
    rw [decide_eq_true_eq, ne_eq, List.filter_eq_nil_iff] <;> push Not <;> simp

theorem has1_left (F : List Nat) (a b : Nat) (p : Bool) : has1 F a p = (has F a b p true || has F a b p false) := by
  rw [Bool.eq_iff_iff, Bool.or_eq_true, has1_iff, has_iff, has_iff]
  constructor
  · rintro ⟨s, hs, h⟩
    cases hb : s.testBit b
    · exact Or.inr ⟨s, hs, h, hb⟩
    · exact Or.inl ⟨s, hs, h, hb⟩
  · rintro (⟨s, hs, h, _⟩ | ⟨s, hs, h, _⟩) <;> exact ⟨s, hs, h⟩

theorem has1_right (F : List Nat) (a b : Nat) (q : Bool) : has1 F b q = (has F a b true q || has F a b false q) := by
  rw [Bool.eq_iff_iff, Bool.or_eq_true, has1_iff, has_iff, has_iff]
  constructor
  · rintro ⟨s, hs, h⟩
    cases hb : s.testBit a
    · exact Or.inr ⟨s, hs, hb, h⟩
    · exact Or.inl ⟨s, hs, hb, h⟩
  · rintro (⟨s, hs, _, h⟩ | ⟨s, hs, _, h⟩) <;> exact ⟨s, hs, h⟩

/-- the atom has only one value on the spots -/
def oneside (F : List Nat) (a : Nat) : Bool := !(has1 F a true && has1 F a false)

/-- the two atoms are equal on all spots or complementary on all spots -/
def related (F : List Nat) (a b : Nat) : Bool :=
  (!has F a b true false && !has F a b false true) || (!has F a b true true && !has F a b false false)

theorem has_some {F : List Nat} (hF : F ≠ []) (a b : Nat) :
    has F a b true true = true ∨ has F a b true false = true ∨ has F a b false true = true ∨ has F a b false false = true := by
  obtain ⟨s, hs⟩ := List.exists_mem_of_ne_nil F hF
  simp only [has_iff]
  cases ha : s.testBit a <;> cases hb : s.testBit b
  · exact Or.inr (Or.inr (Or.inr ⟨s, hs, ha, hb⟩))
  · exact Or.inr (Or.inr (Or.inl ⟨s, hs, ha, hb⟩))
  · exact Or.inr (Or.inl ⟨s, hs, ha, hb⟩)
  · exact Or.inl ⟨s, hs, ha, hb⟩

theorem isUni_eq {F : List Nat} (hF : F ≠ []) (a : Nat) : isUni (splitOf F a) = oneside F a := by
  obtain ⟨h1, h2⟩ := nonEmpty_side F a
  unfold isUni oneside
  rw [h1, h2]
  have : has1 F a true = true ∨ has1 F a false = true := by
    obtain ⟨s, hs⟩ := List.exists_mem_of_ne_nil F hF
    simp only [has1_iff]
    cases ha : s.testBit a
    · exact Or.inr ⟨s, hs, ha⟩
    · exact Or.inl ⟨s, hs, ha⟩
  revert this
  cases has1 F a true <;> cases has1 F a false <;> decide

/-- what one pass of the loop does -/
theorem region_cases {F : List Nat} (hF : F ≠ []) (a b : Nat) :
    (countSplitRegions (splitOf F a) (splitOf F b) = 1 → oneside F a = true ∧ oneside F b = true ∧ related F a b = true) ∧
    (countSplitRegions (splitOf F a) (splitOf F b) = 2 → related F a b = (!oneside F a && !oneside F b)) ∧
    (countSplitRegions (splitOf F a) (splitOf F b) ≠ 1 → countSplitRegions (splitOf F a) (splitOf F b) ≠ 2 →
      oneside F a = false ∧ oneside F b = false ∧ related F a b = false) := by
  rw [count_has]
  unfold oneside related
  rw [has1_left F a b, has1_left F a b, has1_right F a b, has1_right F a b]
  have := has_some hF a b
  revert this
  cases has F a b true true <;> cases has F a b true false <;> cases has F a b false true <;> cases has F a b false false <;> decide

/-- the entries of the list of flags after one pass -/
theorem set_two (o : List Bool) (a b k : Nat) (u v : Bool) (hk : k < o.length) :
    ((o.set a u).set b v)[k]? = some (if k = b then v else if k = a then u else o[k]) := by
  rw [List.getElem?_set, List.getElem?_set, List.length_set]
  by_cases h1 : b = k
  · subst h1; simp [hk]
  · by_cases h2 : a = k
    · subst h2
      simp [h1, hk, show ¬ a = b from fun h => h1 h.symm]
    · simp [h1, h2, hk, show ¬ k = b from fun h => h1 h.symm, show ¬ k = a from fun h => h2 h.symm]

theorem onesidedLoop_spec {F : List Nat} (hF : F ≠ []) (n : Nat) (l : List (Nat × Nat)) (equal : Dict (Nat × Nat) Bool) (o : List Bool)
    (hl : ∀ p ∈ l, p.1 < n ∧ p.2 < n) (hd : (Dict.keys equal ++ l).Nodup) (ho : ∀ k < o.length, o[k]? = some (oneside F k) ∨ o[k]? = some false) :
    ∃ o', onesidedLoop ((List.range n).map (splitOf F)) (l.map fun p => (p, countSplitRegions (splitOf F p.1) (splitOf F p.2))) equal o =
        .ok (equal ++ l.map (fun p => (p, related F p.1 p.2)), o') ∧ o'.length = o.length ∧
      ∀ k < o.length, (o[k]? = some (oneside F k) ∨ ∃ p ∈ l, k = p.1 ∨ k = p.2) → o'[k]? = some (oneside F k) := by
  induction l generalizing equal o with
  | nil =>
    refine ⟨o, by simp [onesidedLoop], rfl, ?_⟩
    rintro k hk (h | ⟨p, hp, _⟩)
    · exact h
    · cases hp
  | cons p l ih =>
    obtain ⟨a, b⟩ := p
    obtain ⟨ha, hb⟩ := hl (a, b) (by simp)
    simp only at ha hb
    have hnot : (a, b) ∉ Dict.keys equal := by
      intro hc
      rw [List.nodup_append] at hd
      exact hd.2.2 _ hc _ (by simp) rfl
    obtain ⟨r1, r2, r3⟩ := region_cases hF a b
    -- the step
    have step : ∀ (e : Bool) (o1 : List Bool), o1.length = o.length → e = related F a b →
        (∀ k < o.length, o1[k]? = some (oneside F k) ∨ (k ≠ a ∧ k ≠ b ∧ o1[k]? = o[k]?)) →
        ∃ o', onesidedLoop ((List.range n).map (splitOf F)) (l.map fun p => (p, countSplitRegions (splitOf F p.1) (splitOf F p.2))) (equal.set (a, b) e) o1 =
          .ok (equal ++ ((a, b) :: l).map (fun p => (p, related F p.1 p.2)), o') ∧ o'.length = o.length ∧
          ∀ k < o.length, (o[k]? = some (oneside F k) ∨ ∃ p ∈ (a, b) :: l, k = p.1 ∨ k = p.2) → o'[k]? = some (oneside F k) := by
      intro e o1 hlen he h1
      obtain ⟨o', q1, q2, q3⟩ := ih (equal.set (a, b) e) o1 (fun p hp => hl p (by simp [hp]))
        (by rw [Dict.set_of_not_mem _ hnot, Dict.keys_append]; simpa [List.append_assoc, Dict.keys] using hd)
        (by
          intro k hk
          rw [hlen] at hk
          rcases h1 k hk with h | ⟨_, _, h⟩
          · exact Or.inl h
          · rw [h]; exact ho k hk)
      refine ⟨o', ?_, by rw [q2, hlen], ?_⟩
      · rw [q1, Dict.set_of_not_mem _ hnot, he]
        simp
      · intro k hk hcase
        apply q3 k (by omega)
        rcases h1 k hk with h | ⟨h2, h3, h⟩
        · exact Or.inl h
        · rw [h]
          rcases hcase with h4 | ⟨p, hp, h4⟩
          · exact Or.inl h4
          · rcases List.mem_cons.1 hp with rfl | hp
            · exact absurd h4 (by simp only; tauto)
            · exact Or.inr ⟨p, hp, h4⟩
    rw [List.map_cons]
    unfold onesidedLoop
    by_cases c1 : countSplitRegions (splitOf F a) (splitOf F b) = 1
    · obtain ⟨r11, r12, r13⟩ := r1 c1
      simp only [if_pos c1]
      apply step true _ (by simp) r13.symm
      intro k hk
      rw [set_two _ _ _ _ _ _ hk]
      by_cases hkb : k = b
      · left; rw [if_pos hkb, hkb, r12]
      · by_cases hka : k = a
        · left; rw [if_neg hkb, if_pos hka, hka, r11]
        · right; rw [if_neg hkb, if_neg hka, List.getElem?_eq_getElem hk]; exact ⟨hka, hkb, rfl⟩
    · by_cases c2 : countSplitRegions (splitOf F a) (splitOf F b) = 2
      · simp only [if_neg c1, if_pos c2, item_splits F ha, item_splits F hb, isUni_eq hF]
        apply step _ _ (by simp) (r2 c2).symm
        intro k hk
        rw [set_two _ _ _ _ _ _ hk]
        by_cases hkb : k = b
        · left; rw [if_pos hkb, hkb]
        · by_cases hka : k = a
          · left; rw [if_neg hkb, if_pos hka, hka]
          · right; rw [if_neg hkb, if_neg hka, List.getElem?_eq_getElem hk]; exact ⟨hka, hkb, rfl⟩
      · obtain ⟨r31, r32, r33⟩ := r3 c1 c2
        simp only [if_neg c1, if_neg c2]
        apply step _ _ rfl r33.symm
        intro k hk
        by_cases hkb : k = b
        · left
          rcases ho k hk with h | h
          · exact h
          · rw [h, hkb, r32]
        · by_cases hka : k = a
          · left
            rcases ho k hk with h | h
            · exact h
            · rw [h, hka, r31]
          · exact Or.inr ⟨hka, hkb, rfl⟩

theorem splitsOverlapCounts_eq {f : Boolf} (h : Sound f) : f.splitsOverlapCounts =
    .ok ((pairsBelow f.valency).map fun p => (p, countSplitRegions (splitOf f.fullspots p.1) (splitOf f.fullspots p.2))) := by
  unfold Boolf.splitsOverlapCounts
  rw [splits_eq h]
  simp only [bind, Except.bind, pure, Except.pure]
  rw [mapM_ok (g := fun p => (p, countSplitRegions (splitOf f.fullspots p.1) (splitOf f.fullspots p.2)))]
  · simp only
    rw [Dict.ofPairs_of_nodup]
    unfold Dict.keys
    rw [List.map_map]
    exact (List.map_id (pairsBelow f.valency)).symm ▸ pairsBelow_nodup _
  · rintro ⟨a, b⟩ hp
    rw [mem_pairsBelow] at hp
    simp only [item_splits f.fullspots (show a < f.valency by omega), item_splits f.fullspots hp.2]

theorem fullspots_ne_nil {f : Boolf} (h : Canon f) (hc : f.atomvals ≠ []) : f.fullspots ≠ [] := by
  intro hn
  obtain ⟨x, hx⟩ := List.exists_mem_of_ne_nil _ hc
  have hdep := (h.mem_iff x).1 hx
  have hev : ∀ a, f.eval a = false := by
    intro a
    by_contra hc
    rw [Bool.not_eq_false, ← spot_mem h.toSound, hn] at hc
    cases hc
  obtain ⟨a, ha⟩ := hdep
  rw [hev, hev] at ha
  exact ha rfl

theorem splitsEqualAndOnesided_eq {f : Boolf} (h : Canon f) : f.splitsEqualAndOnesided =
    .ok ((pairsBelow f.valency).map (fun p => (p, related f.fullspots p.1 p.2)), (List.range f.valency).map (oneside f.fullspots)) := by
  unfold Boolf.splitsEqualAndOnesided
  by_cases h0 : f.valency = 0
  · rw [if_pos h0, h0]; rfl
  have hF : f.fullspots ≠ [] := fullspots_ne_nil h (by intro hc; rw [h.val, hc] at h0; exact h0 rfl)
  rw [if_neg h0]
  by_cases h1 : f.valency = 1
  · rw [if_pos h1, h1]
    show Except.ok ([], [true]) = Except.ok ([], [oneside f.fullspots 0])
    have he := h.ess 0 (by rw [← h.val, h1]; decide)
    have hl := h.len
    rw [← h.val, h1] at he hl
    match hv : f.root.vector, hl with
    | [p, q], _ =>
      rw [hv] at he
      have : oneside f.fullspots 0 = true := by
        unfold Boolf.fullspots Binv.exposet
        rw [hv]
        revert he
        unfold Ess
        cases p <;> cases q <;> decide
      rw [this]
  · rw [if_neg h1, splits_eq h.toSound, splitsOverlapCounts_eq h.toSound]
    simp only [bind, Except.bind]
    obtain ⟨o', q1, q2, q3⟩ := onesidedLoop_spec hF f.valency (pairsBelow f.valency) [] (List.replicate f.valency false)
      (by rintro ⟨a, b⟩ hp; rw [mem_pairsBelow] at hp; simp only; omega) (by simpa using pairsBelow_nodup _)
      (by intro k hk; right; rw [List.getElem?_replicate, if_pos (by simpa using hk)])
    rw [q1]
    congr 2
    apply List.ext_getElem?
    intro k
    rw [List.length_replicate] at q2 q3
    by_cases hk : k < f.valency
    · rw [q3 k hk, List.getElem?_map, List.getElem?_range hk]
      · rfl
      · right
        by_cases hk0 : k = 0
        · exact ⟨(0, 1), mem_pairsBelow.2 (by omega), Or.inl hk0⟩
        · exact ⟨(0, k), mem_pairsBelow.2 (by omega), Or.inr rfl⟩
    · rw [List.getElem?_eq_none (by omega), List.getElem?_eq_none (by simp; omega)]

/-! ### true places -/

/-- a full spot is a true place -/
theorem spot_key {f : Boolf} (h : Sound f) {s : Nat} (hs : s ∈ f.fullspots) :
    ∃ key : Nat, f.getItem key = .ok true ∧ ∀ k x : Nat, f.atomvals[k]? = some x → key.testBit x = s.testBit k := by
  obtain ⟨a, a1, a2⟩ := spot_assign h (fullspots_lt h hs)
  obtain ⟨key, k1, k2⟩ := exists_key h a
  refine ⟨key, ?_, fun k x hk => by rw [k2 x (List.mem_of_getElem? hk), a2 k x hk]⟩
  rw [getItem_true h, k1, ← spot_mem h, a1]
  exact hs

/-- a true place is a full spot -/
theorem key_spot {f : Boolf} (h : Sound f) {key : Nat} (hk : f.getItem key = .ok true) :
    ∃ s ∈ f.fullspots, ∀ k x : Nat, f.atomvals[k]? = some x → s.testBit k = key.testBit x :=
  ⟨valB (f.atomvals.map key.testBit), (spot_mem h _).2 ((getItem_true h key).1 hk), fun _ _ hk => spot_testBit hk _⟩

theorem has_key {f : Boolf} (h : Sound f) {a b x y : Nat} (ha : f.atomvals[a]? = some x) (hb : f.atomvals[b]? = some y) (p q : Bool) :
    has f.fullspots a b p q = true ↔ ∃ key : Nat, f.getItem key = .ok true ∧ key.testBit x = p ∧ key.testBit y = q := by
  rw [has_iff]
  constructor
  · rintro ⟨s, hs, h1, h2⟩
    obtain ⟨key, k1, k2⟩ := spot_key h hs
    exact ⟨key, k1, by rw [k2 a x ha, h1], by rw [k2 b y hb, h2]⟩
  · rintro ⟨key, k1, h1, h2⟩
    obtain ⟨s, hs, k2⟩ := key_spot h k1
    exact ⟨s, hs, by rw [k2 a x ha, h1], by rw [k2 b y hb, h2]⟩

theorem has1_key {f : Boolf} (h : Sound f) {a x : Nat} (ha : f.atomvals[a]? = some x) (p : Bool) :
    has1 f.fullspots a p = true ↔ ∃ key : Nat, f.getItem key = .ok true ∧ key.testBit x = p := by
  rw [has1_left _ a a, Bool.or_eq_true, has_key h ha ha, has_key h ha ha]
  constructor
  · rintro (⟨key, k1, h1, _⟩ | ⟨key, k1, h1, _⟩) <;> exact ⟨key, k1, h1⟩
  · rintro ⟨key, k1, h1⟩
    cases hx : key.testBit x
    · exact Or.inr ⟨key, k1, h1, hx⟩
    · exact Or.inl ⟨key, k1, h1, hx⟩

theorem related_key {f : Boolf} (h : Sound f) {a b x y : Nat} (ha : f.atomvals[a]? = some x) (hb : f.atomvals[b]? = some y) :
    related f.fullspots a b = true ↔ (∀ key : Nat, f.getItem key = .ok true → key.testBit x = key.testBit y) ∨
      ∀ key : Nat, f.getItem key = .ok true → key.testBit x ≠ key.testBit y := by
  unfold related
  rw [Bool.or_eq_true, Bool.and_eq_true, Bool.and_eq_true]
  simp only [Bool.not_eq_true', ← Bool.not_eq_true, has_key h ha hb]
  push Not
  constructor
  · rintro (⟨h1, h2⟩ | ⟨h1, h2⟩)
    · left
      intro key hk
      have := h1 key hk; have := h2 key hk
      cases hx : key.testBit x <;> cases hy : key.testBit y <;> simp_all
    · right
      intro key hk
      have := h1 key hk; have := h2 key hk
      cases hx : key.testBit x <;> cases hy : key.testBit y <;> simp_all
  · rintro (h1 | h1)
    · left
      constructor <;> (intro key hk he; have := h1 key hk; simp_all)
    · right
      constructor <;> (intro key hk he; have := h1 key hk; simp_all)

theorem oneside_key {f : Boolf} (h : Sound f) {a x : Nat} (ha : f.atomvals[a]? = some x) :
    oneside f.fullspots a = true ↔ (∀ key : Nat, f.getItem key = .ok true → key.testBit x = true) ∨
      ∀ key : Nat, f.getItem key = .ok true → key.testBit x = false := by
  unfold oneside
  rw [Bool.not_eq_true', ← Bool.not_eq_true, Bool.and_eq_true, has1_key h ha, has1_key h ha, not_and_or]
  push Not
  simp only [ne_eq, Bool.not_eq_true, Bool.not_eq_false]
  exact or_comm

theorem atom_some {f : Boolf} (h : Sound f) {k : Nat} (hk : k < f.valency) : ∃ x, f.atomvals[k]? = some x :=
  ⟨_, List.getElem?_eq_getElem (by rw [← h.val]; exact hk)⟩

/-- **C82.** `splits` has an entry for each atom: the full spots where it is true, and those where it is false. -/
theorem C82_splits (f : Boolf) (hf : Obj f) :
    ∃ l, f.splits = .ok l ∧ l.length = f.valency ∧ ∀ k x : Nat, f.atomvals[k]? = some x →
      ∃ recto verso, l[k]? = some (recto, verso) ∧ recto.Pairwise (· < ·) ∧ verso.Pairwise (· < ·) ∧
        (∀ s ∈ recto, s < 2 ^ f.valency) ∧ (∀ s ∈ verso, s < 2 ^ f.valency) ∧
        ∀ s key : Nat, s < 2 ^ f.valency → (∀ j y : Nat, f.atomvals[j]? = some y → s.testBit j = key.testBit y) →
          (s ∈ recto ↔ f.getItem key = .ok true ∧ key.testBit x = true) ∧ (s ∈ verso ↔ f.getItem key = .ok true ∧ key.testBit x = false) := by
  have h := hf.good.toSound
  obtain ⟨f1, f2, f3⟩ := C81_fullspots f hf
  refine ⟨_, splits_eq h, by simp, fun k x hk => ?_⟩
  refine ⟨_, _, by rw [List.getElem?_map, List.getElem?_range (by rw [h.val]; exact getElem?_some_lt hk)]; rfl,
    f1.filter _, f1.filter _, fun s hs => f2 s (List.mem_filter.1 hs).1, fun s hs => f2 s (List.mem_filter.1 hs).1, fun s key hs hd => ?_⟩
  rw [List.mem_filter, List.mem_filter, f3 s key hs hd, hd k x hk]
  simp

/-- **C82.** `splits_overlap_counts` has an entry for each pair of atoms: how many of the four pairs of truth values they have where the function is true. -/
theorem C82_overlap_counts (f : Boolf) (hf : Obj f) : ∃ d, f.splitsOverlapCounts = .ok d ∧ Dict.keys d = pairsBelow f.valency ∧
    ∀ a b x y : Nat, a < b → f.atomvals[a]? = some x → f.atomvals[b]? = some y →
      ∃ l : List (Bool × Bool), d.get? (a, b) = some l.length ∧ l.Nodup ∧
        ∀ p q : Bool, (p, q) ∈ l ↔ ∃ key : Nat, f.getItem key = .ok true ∧ key.testBit x = p ∧ key.testBit y = q := by
  have h := hf.good.toSound
  have hkeys : ∀ {β : Type} (g : Nat × Nat → β), Dict.keys ((pairsBelow f.valency).map fun p => (p, g p)) = pairsBelow f.valency := by
    intro β g; unfold Dict.keys; rw [List.map_map]; exact List.map_id _
  refine ⟨_, splitsOverlapCounts_eq h, hkeys _, fun a b x y hab ha hb => ?_⟩
  refine ⟨[(true, true), (true, false), (false, true), (false, false)].filter fun p => has f.fullspots a b p.1 p.2, ?_, ?_, ?_⟩
  · apply Dict.mem_get? (by rw [hkeys]; exact pairsBelow_nodup _)
    rw [List.mem_map]
    refine ⟨(a, b), mem_pairsBelow.2 ⟨hab, by rw [h.val]; exact getElem?_some_lt hb⟩, ?_⟩
    rw [count_has]
    simp only [List.filter]
    cases has f.fullspots a b true true <;> cases has f.fullspots a b true false <;> cases has f.fullspots a b false true <;>
      cases has f.fullspots a b false false <;> rfl
  · exact List.Nodup.filter _ (by decide)
  · intro p q
    rw [List.mem_filter, ← has_key h ha hb]
    cases p <;> cases q <;> simp

/-- **C82.** `split_pairs_with_3_overlaps` are the pairs with the entry 3. -/
theorem C82_three_overlaps (f : Boolf) (hf : Obj f) : ∃ l d, f.splitPairsWith3Overlaps = .ok l ∧ f.splitsOverlapCounts = .ok d ∧ l.Nodup ∧
    ∀ p, p ∈ l ↔ d.get? p = some 3 := by
  have h := hf.good.toSound
  obtain ⟨d, d1, d2, _⟩ := C82_overlap_counts f hf
  have hn : (Dict.keys d).Nodup := by rw [d2]; exact pairsBelow_nodup _
  refine ⟨_, d, by unfold Boolf.splitPairsWith3Overlaps; rw [d1]; rfl, d1, ?_, ?_⟩
  · exact List.Nodup.sublist (List.filter_sublist.map _) hn
  · intro p
    rw [List.mem_map, Dict.get?_iff_mem hn]
    constructor
    · rintro ⟨⟨p', c⟩, hp, rfl⟩
      rw [List.mem_filter, decide_eq_true_eq] at hp
      obtain ⟨h1, h2⟩ := hp
      simp only at h2
      rw [← h2]; exact h1
    · intro hp
      exact ⟨(p, 3), List.mem_filter.2 ⟨hp, by simp⟩, rfl⟩

/-- **C82.** `splits_equal` has an entry for each pair of atoms: whether they are equal everywhere, or complementary everywhere, where the function is true. -/
theorem C82_equal (f : Boolf) (hf : Reach f) : ∃ d, f.splitsEqual = .ok d ∧ Dict.keys d = pairsBelow f.valency ∧
    ∀ a b x y : Nat, a < b → f.atomvals[a]? = some x → f.atomvals[b]? = some y → ∃ e, d.get? (a, b) = some e ∧
      (e = true ↔ (∀ key : Nat, f.getItem key = .ok true → key.testBit x = key.testBit y) ∨
        ∀ key : Nat, f.getItem key = .ok true → key.testBit x ≠ key.testBit y) := by
  have h := hf.canon.toSound
  have hkeys : ∀ {β : Type} (g : Nat × Nat → β), Dict.keys ((pairsBelow f.valency).map fun p => (p, g p)) = pairsBelow f.valency := by
    intro β g; unfold Dict.keys; rw [List.map_map]; exact List.map_id _
  refine ⟨_, by unfold Boolf.splitsEqual; rw [splitsEqualAndOnesided_eq hf.canon]; rfl, hkeys _, fun a b x y hab ha hb => ?_⟩
  refine ⟨related f.fullspots a b, ?_, related_key h ha hb⟩
  apply Dict.mem_get? (by rw [hkeys]; exact pairsBelow_nodup _)
  exact List.mem_map.2 ⟨(a, b), mem_pairsBelow.2 ⟨hab, by rw [h.val]; exact getElem?_some_lt hb⟩, rfl⟩

theorem splitsOnesided_eq {f : Boolf} (h : Canon f) : f.splitsOnesided = .ok ((List.range f.valency).map (oneside f.fullspots)) := by
  unfold Boolf.splitsOnesided; rw [splitsEqualAndOnesided_eq h]; rfl

theorem onesidedAtomkeys_eq {f : Boolf} (h : Canon f) : f.onesidedAtomkeys = .ok ((List.range f.valency).filter (oneside f.fullspots)) := by
  unfold Boolf.onesidedAtomkeys
  rw [splitsOnesided_eq h]
  simp only [bind, Except.bind, pure, Except.pure]
  congr 1
  generalize f.valency = n
  have : ((List.range n).map (oneside f.fullspots)).zipIdx = (List.range n).map fun k => (oneside f.fullspots k, k) := by
    apply List.ext_getElem?
    intro k
    rw [List.getElem?_zipIdx, List.getElem?_map, List.getElem?_map]
    by_cases hk : k < n
    · rw [List.getElem?_range hk]; simp
    · rw [List.getElem?_eq_none (by simp; omega)]; rfl
  rw [this, List.filter_map, List.map_map]
  exact List.map_id _

/-- **C82.** `splits_onesided` has an entry for each atom: whether it has the same value wherever the function is true;
`onesided_atomkeys` are the positions of these atoms, ascending. -/
theorem C82_onesided (f : Boolf) (hf : Reach f) : ∃ l m, f.splitsOnesided = .ok l ∧ l.length = f.valency ∧
    f.onesidedAtomkeys = .ok m ∧ m.Pairwise (· < ·) ∧ (∀ k ∈ m, k < f.valency) ∧
    ∀ k x : Nat, f.atomvals[k]? = some x → ∃ e, l[k]? = some e ∧ (e = true ↔ k ∈ m) ∧
      (e = true ↔ (∀ key : Nat, f.getItem key = .ok true → key.testBit x = true) ∨
        ∀ key : Nat, f.getItem key = .ok true → key.testBit x = false) := by
  have h := hf.canon.toSound
  refine ⟨_, _, splitsOnesided_eq hf.canon, by simp, onesidedAtomkeys_eq hf.canon, List.pairwise_lt_range.filter _,
    fun k hk => List.mem_range.1 (List.mem_filter.1 hk).1, fun k x hk => ?_⟩
  have hlt : k < f.valency := by rw [h.val]; exact getElem?_some_lt hk
  refine ⟨oneside f.fullspots k, by rw [List.getElem?_map, List.getElem?_range hlt]; rfl, ?_, oneside_key h hk⟩
  rw [List.mem_filter, List.mem_range]
  simp [hlt]

theorem onesidedIsUniverse_eq {f : Boolf} (h : Canon f) : f.onesidedIsUniverse =
    .ok (((List.range f.valency).filter (oneside f.fullspots)).map fun k => (k, has1 f.fullspots k true)) := by
  unfold Boolf.onesidedIsUniverse
  rw [splits_eq h.toSound, onesidedAtomkeys_eq h]
  simp only [bind, Except.bind, pure, Except.pure]
  rw [mapM_ok (g := fun k => (k, has1 f.fullspots k true))]
  · simp only
    rw [Dict.ofPairs_of_nodup]
    unfold Dict.keys
    rw [List.map_map]
    have : (Prod.fst ∘ fun k => (k, has1 f.fullspots k true)) = (id : Nat → Nat) := rfl
    rw [this, List.map_id]
    exact List.Nodup.filter _ List.nodup_range
  · intro k hk
    rw [List.mem_filter, List.mem_range] at hk
    simp only [item_splits f.fullspots hk.1]
    rw [← (nonEmpty_side f.fullspots k).1]
    unfold nonEmpty
    simp [List.length_pos_iff]

/-- **C82.** `onesided_is_universe` has the key of each of these atoms: whether its value is true. -/
theorem C82_is_universe (f : Boolf) (hf : Reach f) : ∃ d m, f.onesidedIsUniverse = .ok d ∧ f.onesidedAtomkeys = .ok m ∧ Dict.keys d = m ∧
    ∀ k x : Nat, k ∈ m → f.atomvals[k]? = some x → ∃ e, d.get? k = some e ∧
      ∀ key : Nat, f.getItem key = .ok true → key.testBit x = e := by
  have h := hf.canon.toSound
  have hkeys : Dict.keys (((List.range f.valency).filter (oneside f.fullspots)).map fun k => (k, has1 f.fullspots k true)) =
      (List.range f.valency).filter (oneside f.fullspots) := by unfold Dict.keys; rw [List.map_map]; exact List.map_id _
  refine ⟨_, _, onesidedIsUniverse_eq hf.canon, onesidedAtomkeys_eq hf.canon, hkeys, fun k x hm hk => ?_⟩
  refine ⟨has1 f.fullspots k true, ?_, fun key hkey => ?_⟩
  · apply Dict.mem_get? (by rw [hkeys]; exact List.Nodup.filter _ List.nodup_range)
    exact List.mem_map.2 ⟨k, hm, rfl⟩
  · have h1 := (oneside_key h hk).1 (List.mem_filter.1 hm).2
    cases e : has1 f.fullspots k true
    · rw [← Bool.not_eq_true, has1_key h hk] at e
      push Not at e
      exact (Bool.not_eq_true _).mp (e key hkey)
    · obtain ⟨key', k1, k2⟩ := (has1_key h hk true).1 e
      rcases h1 with h1 | h1
      · exact h1 key hkey
      · exact absurd (h1 key' k1) (by rw [k2]; decide)

/-- **C82.** This is false for objects made with `skip_deflation`: the only atom of `Boolf('11', [0], skip_deflation=True)` counts as onesided. -/
theorem C82_onesided_inflated : ∃ f, newTT (.str ['1', '1']) (some [0]) none true = .ok f ∧ f.splitsOnesided = .ok [true] ∧
    f.getItem 0 = .ok true ∧ f.getItem 1 = .ok true := by
  refine ⟨⟨⟨[true, true]⟩, [0], 1, 1, false, true⟩, ?_, by decide, by decide, by decide⟩
  have h2 := C64_formats [true, true] (some [0]) true ['1', '1'] (by decide)
  rw [h2.2.1]
  decide

/-- The conjunction of the atoms 1 and 3: both are onesided, and they are equal where it is true. -/
example : ∃ f, newTT (.str ['0', '0', '0', '1']) (some [1, 3]) = .ok f ∧ Reach f ∧ f.splits = .ok [([3], []), ([3], [])] ∧
    f.splitsEqual = .ok [((0, 1), true)] ∧ f.onesidedAtomkeys = .ok [0, 1] ∧ f.splitsOverlapCounts = .ok [((0, 1), 1)] := by
  obtain ⟨e1, _, e2⟩ := newTT_explicit ['0', '0', '0', '1'] [false, false, false, true] [1, 3] 4 (by decide) (by decide) (by decide)
    (by intro n; simp; omega) (by decide) (by decide)
  refine ⟨_, e1, e2.reach, ?_, ?_, ?_, ?_⟩
  · rw [splits_eq e2.toSound]; decide
  · unfold Boolf.splitsEqual; rw [splitsEqualAndOnesided_eq e2]; decide
  · rw [onesidedAtomkeys_eq e2]; decide
  · rw [splitsOverlapCounts_eq e2.toSound]; decide

end Verif.BF
