import Verif.Boolf.Model8
import Verif.Boolf.Props27

/-!
# C89: full spots by weight, and the links between them
-/

namespace Verif.BF
open Verif.Py Verif.BV Verif.P Verif.W Verif.SP Verif.SPC
open Verif.A hiding Mat

/-! ### specification -/

/-- the positions of the binary ones of a number, ascending -/
def bitsOf (s : Nat) : List Nat := (List.range s).filter s.testBit

/-- the binary weight -/
def weightOf (s : Nat) : Nat := (bitsOf s).length

/-- the second number is the first with one more binary one -/
def Linked (a b : Nat) : Prop := ∃ k, a.testBit k = false ∧ b = a ||| 2 ^ k

theorem mem_bitsOf {s k : Nat} : k ∈ bitsOf s ↔ s.testBit k = true := by
  unfold bitsOf
  rw [List.mem_filter, List.mem_range]
  refine ⟨fun h => h.2, fun h => ⟨?_, h⟩⟩
  exact lt_of_lt_of_le Nat.lt_two_pow_self (Nat.ge_two_pow_of_testBit h)

theorem bitsOf_asc (s : Nat) : (bitsOf s).Pairwise (· < ·) := List.pairwise_lt_range.filter _

theorem linked_iff {a b : Nat} : Linked a b ↔ weightOf b = weightOf a + 1 ∧ ∀ k ∈ bitsOf a, k ∈ bitsOf b := by
  have hn : ∀ s, (bitsOf s).Nodup := fun s => (bitsOf_asc s).imp (fun h => Nat.ne_of_lt h)
  have hc : ∀ s, (bitsOf s).toFinset.card = weightOf s := fun s => List.toFinset_card_of_nodup (hn s)
  have key := @Finset.exists_eq_insert_iff Nat (bitsOf a).toFinset (bitsOf b).toFinset
  rw [hc, hc] at key
  have e1 : ((bitsOf a).toFinset ⊆ (bitsOf b).toFinset ∧ weightOf a + 1 = weightOf b) ↔
      (weightOf b = weightOf a + 1 ∧ ∀ k ∈ bitsOf a, k ∈ bitsOf b) := by
    constructor
    · rintro ⟨h1, h2⟩
      exact ⟨h2.symm, fun k hk => by simpa using h1 (by simpa using hk)⟩
    · rintro ⟨h2, h1⟩
      exact ⟨fun k hk => by simpa using h1 k (by simpa using hk), h2.symm⟩
  rw [← e1, ← key]
  unfold Linked
  have hx : ∀ k, (k ∉ (bitsOf a).toFinset ∧ insert k (bitsOf a).toFinset = (bitsOf b).toFinset) ↔ (a.testBit k = false ∧ b = a ||| 2 ^ k) := by
    intro k
    have h0 : k ∉ (bitsOf a).toFinset ↔ a.testBit k = false := by
      rw [List.mem_toFinset, mem_bitsOf]; simp
    rw [h0]
    refine and_congr_right fun _ => ?_
    constructor
    · intro h
      apply Nat.eq_of_testBit_eq
      intro j
      have hj : j ∈ insert k (bitsOf a).toFinset ↔ j ∈ (bitsOf b).toFinset := by rw [h]
      rw [Finset.mem_insert, List.mem_toFinset, List.mem_toFinset, mem_bitsOf, mem_bitsOf] at hj
      rw [Nat.testBit_or, Nat.testBit_two_pow, Bool.eq_iff_iff, ← hj, Bool.or_eq_true, decide_eq_true_eq, or_comm, eq_comm (a := j)]
    · rintro rfl
      ext j
      rw [Finset.mem_insert, List.mem_toFinset, List.mem_toFinset, mem_bitsOf, mem_bitsOf, Nat.testBit_or, Nat.testBit_two_pow,
        Bool.or_eq_true, decide_eq_true_eq, or_comm, eq_comm (a := j)]
  simp only [hx]

/-! ### the lists -/

theorem sort_asc {l : List Nat} (h : l.Pairwise (· < ·)) : l.insertionSort (· ≤ ·) = l :=
  (h.imp (fun h => Nat.le_of_lt h)).insertionSort_eq

theorem exposet_bitsOf (s : Nat) : ∃ b, BV.mk { intval := some (s : Int) } = .ok b ∧ b.exposet = bitsOf s := by
  obtain ⟨b, hb, hi, -⟩ := C26_intval_only s
  refine ⟨b, hb, asc_ext (exposet_pairwise b) (bitsOf_asc s) fun k => ?_⟩
  rw [mem_exposet, mem_bitsOf, ← hi, intval_eq, testBit_valB, List.getD_eq_getElem?_getD]
  cases b.vector[k]? <;> simp

theorem fullspotAtoms_eq (f : Boolf) : f.fullspotAtoms = .ok (f.fullspots.map fun s => (s, bitsOf s)) := by
  unfold Boolf.fullspotAtoms
  rw [mapM_ok (g := fun s => (s, bitsOf s))]
  · simp only [bind, Except.bind, pure, Except.pure]
    rw [Dict.ofPairs_of_nodup]
    simp only [Dict.keys, List.map_map, Function.comp_def, List.map_id']
    exact (fullspots_asc f).imp (fun h => Nat.ne_of_lt h)
  · intro s _
    obtain ⟨b, hb, he⟩ := exposet_bitsOf s
    rw [hb]
    simp only [bind, Except.bind, pure, Except.pure]
    rw [he, sort_asc (bitsOf_asc s)]

/-- the numbers of weight `w` -/
def ofWeight (P : List Nat) (w : Nat) : List Nat := P.filter fun s => weightOf s = w

theorem mem_ofWeight {P : List Nat} {w s : Nat} : s ∈ ofWeight P w ↔ s ∈ P ∧ weightOf s = w := by simp [ofWeight]

theorem ofWeight_append (P : List Nat) (s w : Nat) : ofWeight (P ++ [s]) w = ofWeight P w ++ if weightOf s = w then [s] else [] := by
  unfold ofWeight
  rw [List.filter_append]
  by_cases h : weightOf s = w <;> simp [h]

theorem weightLoop_spec (P : List Nat) : ∀ (Q : List Nat) (d : Dict Nat (Dict Nat (List Nat))) (t : Dict Nat (List Nat)), (Q ++ P).Nodup →
    d.keys.Nodup →
    (∀ w, d.get? w = if ofWeight Q w = [] then none else some ((ofWeight Q w).map fun s => (s, bitsOf s))) →
    (∀ w, t.get? w = if ofWeight Q w = [] then none else some (ofWeight Q w)) →
    ∃ d' t', weightLoop (P.map fun s => (s, bitsOf s)) d t = (d', t') ∧ d'.keys.Nodup ∧
      (∀ w, d'.get? w = if ofWeight (Q ++ P) w = [] then none else some ((ofWeight (Q ++ P) w).map fun s => (s, bitsOf s))) ∧
      (∀ w, t'.get? w = if ofWeight (Q ++ P) w = [] then none else some (ofWeight (Q ++ P) w)) := by
  induction P with
  | nil =>
    intro Q d t _ hk hd ht
    exact ⟨d, t, rfl, hk, by simpa using hd, by simpa using ht⟩
  | cons s P ih =>
    intro Q d t hn hk hd ht
    rw [List.map_cons, weightLoop]
    have e : Q ++ s :: P = (Q ++ [s]) ++ P := by simp
    rw [e] at hn ⊢
    have hs : s ∉ Q := by
      have := (List.nodup_append.1 (List.nodup_append.1 hn).1).2.2
      intro h
      exact this s h s (by simp) rfl
    refine ih (Q ++ [s]) _ _ hn (Dict.nodup_keys_set hk _ _) ?_ ?_
    · intro w
      rw [Dict.get?_set, ofWeight_append]
      change (if weightOf s = w then _ else _) = _
      by_cases hw : weightOf s = w
      · rw [if_pos hw, if_pos hw, if_neg (by simp)]
        change some (((d.get? (weightOf s)).getD []).set s (bitsOf s)) = _
        rw [hd, hw, List.map_append]
        by_cases h0 : ofWeight Q w = []
        · rw [if_pos h0, h0]; rfl
        · rw [if_neg h0]
          simp only [Option.getD_some, List.map_cons, List.map_nil]
          rw [Dict.set_of_not_mem]
          simp only [Dict.keys, List.map_map, Function.comp_def, List.map_id']
          exact fun h => hs (mem_ofWeight.1 h).1
      · rw [if_neg hw, if_neg hw, List.append_nil, hd]
    · intro w
      rw [Dict.get?_set, ofWeight_append]
      change (if weightOf s = w then _ else _) = _
      by_cases hw : weightOf s = w
      · rw [if_pos hw, if_pos hw, if_neg (by simp)]
        change some (((t.get? (weightOf s)).getD []) ++ [s]) = _
        rw [ht, hw]
        by_cases h0 : ofWeight Q w = []
        · rw [if_pos h0, h0]; rfl
        · rw [if_neg h0]; rfl
      · rw [if_neg hw, if_neg hw, List.append_nil, ht]

theorem fullspots_nodup (f : Boolf) : f.fullspots.Nodup := (fullspots_asc f).imp (fun h => Nat.ne_of_lt h)

theorem weights_spec (f : Boolf) : ∃ d t, weightLoop (f.fullspots.map fun s => (s, bitsOf s)) [] [] = (d, t) ∧ d.keys.Nodup ∧
    (∀ w, d.get? w = if ofWeight f.fullspots w = [] then none else some ((ofWeight f.fullspots w).map fun s => (s, bitsOf s))) ∧
    (∀ w, t.get? w = if ofWeight f.fullspots w = [] then none else some (ofWeight f.fullspots w)) := by
  have := weightLoop_spec f.fullspots [] [] [] (by simpa using fullspots_nodup f) List.nodup_nil (by intro w; rfl) (by intro w; rfl)
  simpa using this

/-! ### C89 -/

/-- layer `w` of the full spots: those with weight `w`, ascending; there is a layer for each weight from 0 to the valency, and nothing is lost -/
theorem C89_layers {f : Boolf} (h : Reach f) : ∃ l, f.layeredFullspots = .ok l ∧ l.length = f.atomvals.length + 1 ∧ l.flatten.Perm f.fullspots ∧
    ∀ w layer, l[w]? = some layer → layer.Pairwise (· < ·) ∧ ∀ s, s ∈ layer ↔ s ∈ f.fullspots ∧ weightOf s = w := by
  obtain ⟨d, t, e, -, -, ht⟩ := weights_spec f
  have hasc : ∀ w, (ofWeight f.fullspots w).Pairwise (· < ·) := fun w => (fullspots_asc f).filter _
  have hl : f.layeredFullspots = .ok ((List.range (f.atomvals.length + 1)).map (ofWeight f.fullspots)) := by
    unfold Boolf.layeredFullspots
    rw [fullspotAtoms_eq]
    simp only [bind, Except.bind, pure, Except.pure, e]
    congr 1
    rw [show f.valency = f.atomvals.length from h.canon.toSound.val]
    apply List.map_congr_left
    intro w _
    rw [ht]
    by_cases h0 : ofWeight f.fullspots w = []
    · rw [if_pos h0, h0]; rfl
    · rw [if_neg h0]; exact sort_asc (hasc w)
  refine ⟨_, hl, by simp, ?_, ?_⟩
  · rw [← List.flatMap_def]
    rw [List.perm_ext_iff_of_nodup _ (fullspots_nodup f)]
    · intro s
      rw [List.mem_flatMap]
      constructor
      · rintro ⟨w, _, hs⟩; exact (mem_ofWeight.1 hs).1
      · intro hs
        refine ⟨weightOf s, ?_, mem_ofWeight.2 ⟨hs, rfl⟩⟩
        have hlt := fullspots_lt h.canon.toSound hs
        have hsub : (bitsOf s).Subperm (List.range f.atomvals.length) := by
          apply List.subperm_of_subset ((bitsOf_asc s).imp (fun h => Nat.ne_of_lt h))
          intro k hk
          rw [List.mem_range]
          by_contra hc
          have := Nat.ge_two_pow_of_testBit (mem_bitsOf.1 hk)
          have := Nat.pow_le_pow_right (n := 2) (by norm_num) (not_lt.1 hc)
          omega
        have := hsub.length_le
        rw [List.length_range] at this
        rw [List.mem_range]
        unfold weightOf
        omega
    · rw [List.nodup_flatMap]
      refine ⟨fun w _ => (hasc w).imp (fun h => Nat.ne_of_lt h), ?_⟩
      refine (List.nodup_range (n := f.atomvals.length + 1)).imp ?_
      intro v w hvw s hv hw
      exact hvw ((mem_ofWeight.1 hv).2.symm.trans (mem_ofWeight.1 hw).2)
  · intro w layer hw
    rw [List.getElem?_map, Option.map_eq_some_iff] at hw
    obtain ⟨w', hw', rfl⟩ := hw
    obtain rfl : w' = w := by
      rw [List.getElem?_eq_some_iff] at hw'
      obtain ⟨_, hx⟩ := hw'
      simpa using hx.symm
    exact ⟨hasc _, fun s => mem_ofWeight⟩

/-- the detailed version: under each occurring weight the full spots with this weight, each with its ones -/
theorem C89_by_weight (f : Boolf) : ∃ d, f.fullspotsByWeight = .ok d ∧
    (∀ w, w ∈ d.keys ↔ ∃ s ∈ f.fullspots, weightOf s = w) ∧
    ∀ w e, d.get? w = some e → e.keys.Pairwise (· < ·) ∧ ∀ s bits, e.get? s = some bits ↔ s ∈ f.fullspots ∧ weightOf s = w ∧ bits = bitsOf s := by
  obtain ⟨d, t, e, hk, hd, -⟩ := weights_spec f
  have hasc : ∀ w, (ofWeight f.fullspots w).Pairwise (· < ·) := fun w => (fullspots_asc f).filter _
  refine ⟨d, ?_, ?_, ?_⟩
  · unfold Boolf.fullspotsByWeight
    rw [fullspotAtoms_eq]
    simp only [bind, Except.bind, pure, Except.pure, e]
  · intro w
    rw [Dict.mem_keys_iff, hd]
    by_cases h0 : ofWeight f.fullspots w = []
    · rw [if_pos h0]
      simp only [reduceCtorEq, exists_false, false_iff]
      rintro ⟨s, hs, hw⟩
      have := mem_ofWeight.2 ⟨hs, hw⟩
      rw [h0] at this; cases this
    · rw [if_neg h0]
      obtain ⟨s, hs⟩ := List.exists_mem_of_ne_nil _ h0
      simp only [Option.some.injEq, exists_eq', true_iff]
      exact ⟨s, (mem_ofWeight.1 hs).1, (mem_ofWeight.1 hs).2⟩
  · intro w x hx
    rw [hd] at hx
    by_cases h0 : ofWeight f.fullspots w = []
    · rw [if_pos h0] at hx; cases hx
    · rw [if_neg h0, Option.some.injEq] at hx
      subst hx
      have hkeys : Dict.keys ((ofWeight f.fullspots w).map fun s => (s, bitsOf s)) = ofWeight f.fullspots w := by
        simp only [Dict.keys, List.map_map, Function.comp_def, List.map_id']
      refine ⟨by rw [hkeys]; exact hasc w, fun s bits => ?_⟩
      rw [Dict.get?_iff_mem (by rw [hkeys]; exact (hasc w).imp (fun h => Nat.ne_of_lt h)), List.mem_map]
      constructor
      · rintro ⟨s', hs', he⟩
        cases he
        exact ⟨(mem_ofWeight.1 hs').1, (mem_ofWeight.1 hs').2, rfl⟩
      · rintro ⟨h1, h2, rfl⟩
        exact ⟨s, mem_ofWeight.2 ⟨h1, h2⟩, rfl⟩

/-- the weights of the full spots, ascending -/
theorem C89_weights (f : Boolf) : ∃ l, f.fullspotWeights = .ok l ∧ l.Pairwise (· < ·) ∧ ∀ w, w ∈ l ↔ ∃ s ∈ f.fullspots, weightOf s = w := by
  obtain ⟨d, t, e, hk, -, -⟩ := weights_spec f
  obtain ⟨d', hd', hm, -⟩ := C89_by_weight f
  have hdd : d' = d := by
    have : f.fullspotsByWeight = .ok d := by
      unfold Boolf.fullspotsByWeight
      rw [fullspotAtoms_eq]
      simp only [bind, Except.bind, pure, Except.pure, e]
    rw [this] at hd'
    cases hd'; rfl
  subst hdd
  refine ⟨d'.keys.insertionSort (· ≤ ·), ?_, ?_, ?_⟩
  · unfold Boolf.fullspotWeights
    rw [hd']; rfl
  · have p1 := List.pairwise_insertionSort (· ≤ ·) d'.keys
    have p2 : (d'.keys.insertionSort (· ≤ ·)).Nodup := (List.perm_insertionSort _ _).nodup_iff.2 hk
    exact (p1.and p2).imp (fun h => by omega)
  · intro w
    rw [(List.perm_insertionSort _ _).mem_iff, hm]

/-! ### links -/

/-- the links between the weights `w` and `w + 1` as found by the loop -/
def linkList (f : Boolf) (w : Nat) : List (Nat × Nat) :=
  linksOf ((ofWeight f.fullspots w).map fun s => (s, bitsOf s)) ((ofWeight f.fullspots (w + 1)).map fun s => (s, bitsOf s))

theorem get?_bits {P : List Nat} {s : Nat} (h : s ∈ P) : Dict.get? (P.map fun s => (s, bitsOf s)) s = some (bitsOf s) := by
  induction P with
  | nil => cases h
  | cons x P ih =>
    rw [List.map_cons, Dict.get?]
    by_cases hx : x = s
    · subst hx; simp
    · simp only [hx, if_false]
      rcases List.mem_cons.1 h with rfl | h'
      · exact absurd rfl hx
      · simpa using ih h'

theorem mem_linkList {f : Boolf} {w a b : Nat} : (a, b) ∈ linkList f w ↔ a ∈ f.fullspots ∧ b ∈ f.fullspots ∧ weightOf a = w ∧ Linked a b := by
  unfold linkList linksOf
  rw [List.mem_filter]
  simp only [Dict.keys, List.map_map, Function.comp_def, List.map_id', List.mem_flatMap, List.mem_map, Prod.mk.injEq]
  rw [linked_iff]
  constructor
  · rintro ⟨⟨a', ha', b', hb', rfl, rfl⟩, hall⟩
    rw [get?_bits ha', get?_bits hb'] at hall
    simp only [Option.getD_some, List.all_eq_true, List.contains_iff_mem] at hall
    rw [mem_ofWeight] at ha' hb'
    exact ⟨ha'.1, hb'.1, ha'.2, by rw [ha'.2, hb'.2], hall⟩
  · rintro ⟨ha, hb, hw, hw', hall⟩
    have ha' : a ∈ ofWeight f.fullspots w := mem_ofWeight.2 ⟨ha, hw⟩
    have hb' : b ∈ ofWeight f.fullspots (w + 1) := mem_ofWeight.2 ⟨hb, by rw [hw', hw]⟩
    refine ⟨⟨a, ha', b, hb', rfl, rfl⟩, ?_⟩
    rw [get?_bits ha', get?_bits hb']
    simpa using hall

theorem linkList_nodup (f : Boolf) (w : Nat) : (linkList f w).Nodup := by
  unfold linkList linksOf
  simp only [Dict.keys, List.map_map, Function.comp_def, List.map_id']
  have hn : ∀ w, (ofWeight f.fullspots w).Nodup := fun w => (fullspots_nodup f).filter _
  have : ((ofWeight f.fullspots w).flatMap fun a => (ofWeight f.fullspots (w + 1)).map fun b => (a, b)) =
      (ofWeight f.fullspots w).product (ofWeight f.fullspots (w + 1)) := rfl
  rw [this]
  exact ((hn w).product (hn (w + 1))).filter _

/-- the list of links under the weight `w` -/
def sortedLinks (f : Boolf) (w : Nat) : List (Nat × Nat) := (linkList f w).insertionSort pairLe

theorem linksLoop_spec (f : Boolf) {W : List Nat} {D : Dict Nat (Dict Nat (List Nat))} (hW : W.Pairwise (· < ·))
    (hD : ∀ w ∈ W, D.get? w = some ((ofWeight f.fullspots w).map fun s => (s, bitsOf s))) :
    ∀ (I : List Nat) (main : Dict Nat (List (Nat × Nat))) (count : Nat), (∀ i ∈ I, i + 1 < W.length) → I.Nodup →
    (∀ i ∈ I, ∀ w, W[i]? = some w → w ∉ main.keys) →
    linksLoop W D I main count = .ok
      (main ++ (I.filter fun i => W.contains (W.getD i 0 + 1)).map (fun i => (W.getD i 0, sortedLinks f (W.getD i 0))),
       count + (((I.filter fun i => W.contains (W.getD i 0 + 1)).map fun i => (sortedLinks f (W.getD i 0)).length).sum)) := by
  intro I
  induction I with
  | nil => intro main count _ _ _; simp [linksLoop]
  | cons i I ih =>
    intro main count hI hn hm
    have hi := hI i List.mem_cons_self
    have hgi : W[i]? = some (W[i]'(by omega)) := List.getElem?_eq_getElem _
    have hgi1 : W[i + 1]? = some (W[i + 1]'hi) := List.getElem?_eq_getElem _
    have hlt : W[i]'(by omega) < W[i + 1] := List.pairwise_iff_getElem.1 hW i (i + 1) (by omega) hi (by omega)
    have hget : W.getD i 0 = W[i]'(by omega) := by rw [List.getD_eq_getElem?_getD, hgi]; rfl
    have hcont : W.contains (W.getD i 0 + 1) = true ↔ W[i + 1] = W[i]'(by omega) + 1 := by
      rw [List.contains_iff_mem, hget]
      constructor
      · intro h
        obtain ⟨j, hj, hje⟩ := List.mem_iff_getElem.1 h
        have hinc : ∀ a b (ha : a < W.length) (hb : b < W.length), a < b → W[a] < W[b] := fun a b ha hb => List.pairwise_iff_getElem.1 hW a b ha hb
        rcases Nat.lt_trichotomy j (i + 1) with h1 | h1 | h1
        · rcases Nat.lt_or_eq_of_le (Nat.le_of_lt_succ h1) with h2 | h2
          · have := hinc j i hj (by omega) h2; omega
          · subst h2; omega
        · subst h1; exact hje
        · have := hinc (i + 1) j hi hj h1; omega
      · intro h; rw [← h]; exact List.getElem_mem _
    rw [linksLoop, item_ok hgi, item_ok hgi1]
    simp only [bind, Except.bind]
    have hstep := ih
    by_cases hc : W[i + 1] = W[i]'(by omega) + 1
    · rw [if_pos hc, hD _ (List.getElem_mem _), ← hc, hD _ (List.getElem_mem _)]
      simp only []
      rw [hc]
      change linksLoop W D I (main.set _ (sortedLinks f _)) (count + (linkList f _).length) = _
      have hnm : (W[i]'(by omega)) ∉ main.keys := hm i List.mem_cons_self _ hgi
      rw [Dict.set_of_not_mem _ hnm]
      rw [ih _ _ (fun j hj => hI j (List.mem_cons_of_mem _ hj)) (List.nodup_cons.1 hn).2]
      · rw [List.filter_cons_of_pos (by simpa using hcont.2 hc)]
        rw [List.map_cons, List.map_cons, List.sum_cons, hget]
        have : (linkList f W[i]).length = (sortedLinks f W[i]).length := by unfold sortedLinks; rw [List.length_insertionSort]
        rw [this]
        simp [Nat.add_assoc]
      · intro j hj w hw
        rw [Dict.keys_append]
        simp only [Dict.keys, List.map_cons, List.map_nil, List.mem_append, List.mem_singleton, not_or]
        refine ⟨hm j (List.mem_cons_of_mem _ hj) w hw, ?_⟩
        rintro rfl
        have hji : j ≠ i := fun h => (List.nodup_cons.1 hn).1 (h ▸ hj)
        obtain ⟨hj', hw'⟩ := List.getElem?_eq_some_iff.1 hw
        have hWn : W.Nodup := hW.imp (fun h => Nat.ne_of_lt h)
        exact hji ((hWn.getElem_inj_iff).1 hw')
    · rw [if_neg hc]
      rw [ih _ _ (fun j hj => hI j (List.mem_cons_of_mem _ hj)) (List.nodup_cons.1 hn).2 (fun j hj => hm j (List.mem_cons_of_mem _ hj))]
      rw [List.filter_cons_of_neg (by simpa using fun h => hc (hcont.1 (by simpa using h)))]

theorem range_filter_map (W : List Nat) (hW : W.Pairwise (· < ·)) :
    ((List.range (W.length - 1)).filter fun i => W.contains (W.getD i 0 + 1)).map (fun i => W.getD i 0) = W.filter fun w => W.contains (w + 1) := by
  have h1 : W = (List.range W.length).map (fun i => W.getD i 0) := by
    apply List.ext_getElem
    · simp
    · intro i h _
      simp [List.getD_eq_getElem?_getD, List.getElem?_eq_getElem h]
  rcases Nat.eq_zero_or_pos W.length with h0 | hpos
  · have : W = [] := List.length_eq_zero_iff.1 h0
    subst this; rfl
  · have h2 : List.range W.length = List.range (W.length - 1) ++ [W.length - 1] := by
      conv_lhs => rw [show W.length = (W.length - 1) + 1 by omega, List.range_succ]
    have h3 : (List.range W.length).filter (fun i => W.contains (W.getD i 0 + 1)) = (List.range (W.length - 1)).filter fun i => W.contains (W.getD i 0 + 1) := by
      rw [h2, List.filter_append, List.filter_cons_of_neg, List.filter_nil, List.append_nil]
      intro hc
      rw [List.contains_iff_mem] at hc
      obtain ⟨j, hj, hje⟩ := List.mem_iff_getElem.1 hc
      have hg : W.getD (W.length - 1) 0 = W[W.length - 1]'(by omega) := by
        rw [List.getD_eq_getElem?_getD, List.getElem?_eq_getElem (by omega)]; rfl
      rw [hg] at hje
      rcases Nat.lt_or_ge j (W.length - 1) with h | h
      · have := List.pairwise_iff_getElem.1 hW j (W.length - 1) hj (by omega) h; omega
      · have : j = W.length - 1 := by omega
        subst this; omega
    rw [← h3]
    conv_rhs => rw [h1]
    rw [List.filter_map]
    simp only [← h1, Function.comp_def]

theorem links_spec (f : Boolf) : ∃ W : List Nat, W.Pairwise (· < ·) ∧ (∀ w, w ∈ W ↔ (∃ s ∈ f.fullspots, weightOf s = w) ∧ ∃ s ∈ f.fullspots, weightOf s = w + 1) ∧
    f.fullspotlinks = .ok (W.map (fun w => (w, sortedLinks f w)), (W.map fun w => (sortedLinks f w).length).sum) := by
  obtain ⟨d, t, e, hk, hd, -⟩ := weights_spec f
  obtain ⟨V, hV, hVa, hVm⟩ := C89_weights f
  have hb : f.fullspotsByWeight = .ok d := by
    unfold Boolf.fullspotsByWeight
    rw [fullspotAtoms_eq]
    simp only [bind, Except.bind, pure, Except.pure, e]
  refine ⟨V.filter fun w => V.contains (w + 1), hVa.filter _, ?_, ?_⟩
  · intro w
    rw [List.mem_filter, List.contains_iff_mem, hVm, hVm]
  · unfold Boolf.fullspotlinks
    rw [hV, hb]
    simp only [bind, Except.bind]
    rw [linksLoop_spec f hVa _ _ _ _ _ List.nodup_range (by intro i _ w _ h; cases h)]
    · rw [← range_filter_map V hVa]
      simp [Function.comp_def]
    · intro w hw
      rw [hd, if_neg]
      intro h0
      obtain ⟨s, hs, hw'⟩ := (hVm w).1 hw
      have := mem_ofWeight.2 ⟨hs, hw'⟩
      rw [h0] at this; cases this
    · intro i hi
      rw [List.mem_range] at hi
      omega

instance : Std.Total pairLe := ⟨fun a b => by unfold pairLe; omega⟩
instance : IsTrans (Nat × Nat) pairLe := ⟨fun a b c => by unfold pairLe; omega⟩

/-- under each weight that occurs together with the next one, the pairs of full spots that differ in one additional binary one, in lexicographic order -/
theorem C89_links (f : Boolf) : ∃ d, f.fullspotlinksByWeight = .ok d ∧
    (∀ w, w ∈ d.keys ↔ (∃ s ∈ f.fullspots, weightOf s = w) ∧ ∃ s ∈ f.fullspots, weightOf s = w + 1) ∧
    ∀ w l, d.get? w = some l → l.Pairwise (fun p q => p.1 < q.1 ∨ (p.1 = q.1 ∧ p.2 < q.2)) ∧
      ∀ a b, (a, b) ∈ l ↔ a ∈ f.fullspots ∧ b ∈ f.fullspots ∧ weightOf a = w ∧ Linked a b := by
  obtain ⟨W, hW, hm, he⟩ := links_spec f
  refine ⟨_, by unfold Boolf.fullspotlinksByWeight; rw [he]; rfl, ?_, ?_⟩
  · intro w
    rw [← hm]
    simp only [Dict.keys, List.map_map, Function.comp_def, List.map_id']
  · intro w l hl
    rw [Dict.get?_iff_mem (by simp only [Dict.keys, List.map_map, Function.comp_def, List.map_id']; exact hW.imp (fun h => Nat.ne_of_lt h)), List.mem_map] at hl
    obtain ⟨w', _, hw⟩ := hl
    rw [Prod.mk.injEq] at hw
    obtain ⟨rfl, rfl⟩ := hw
    constructor
    · have p1 : (sortedLinks f w').Pairwise pairLe := List.pairwise_insertionSort _ _
      have p2 : (sortedLinks f w').Nodup := (List.perm_insertionSort _ _).nodup_iff.2 (linkList_nodup f w')
      refine (p1.and p2).imp ?_
      rintro ⟨a, b⟩ ⟨c, d⟩ ⟨h1, h2⟩
      unfold pairLe at h1
      simp only [ne_eq, Prod.mk.injEq, not_and] at h1 h2 ⊢
      rcases h1 with h1 | ⟨h1, h3⟩
      · exact Or.inl h1
      · exact Or.inr ⟨h1, lt_of_le_of_ne h3 (h2 h1)⟩
    · intro a b
      unfold sortedLinks
      rw [(List.perm_insertionSort _ _).mem_iff, mem_linkList]

open Classical in
/-- the number of links: the number of pairs of full spots that differ in one additional binary one -/
theorem C89_number_of_links (f : Boolf) :
    f.numberOfFullspotlinks = .ok ((f.fullspots.product f.fullspots).countP fun p => decide (Linked p.1 p.2)) := by
  obtain ⟨W, hW, hm, he⟩ := links_spec f
  unfold Boolf.numberOfFullspotlinks
  rw [he]
  simp only [bind, Except.bind, pure, Except.pure]
  congr 1
  rw [← List.length_flatMap, List.countP_eq_length_filter]
  apply List.Perm.length_eq
  rw [List.perm_ext_iff_of_nodup]
  · rintro ⟨a, b⟩
    simp only [List.mem_flatMap, List.mem_filter, List.pair_mem_product, decide_eq_true_eq]
    constructor
    · rintro ⟨w, _, hs⟩
      unfold sortedLinks at hs
      rw [(List.perm_insertionSort _ _).mem_iff, mem_linkList] at hs
      exact ⟨⟨hs.1, hs.2.1⟩, hs.2.2.2⟩
    · rintro ⟨⟨ha, hb⟩, hl⟩
      refine ⟨weightOf a, (hm _).2 ⟨⟨a, ha, rfl⟩, b, hb, (linked_iff.1 hl).1⟩, ?_⟩
      unfold sortedLinks
      rw [(List.perm_insertionSort _ _).mem_iff, mem_linkList]
      exact ⟨ha, hb, rfl, hl⟩
  · rw [List.nodup_flatMap]
    refine ⟨fun w _ => (List.perm_insertionSort _ _).nodup_iff.2 (linkList_nodup f w), ?_⟩
    refine hW.imp ?_
    rintro v w hvw ⟨a, b⟩ h1 h2
    unfold sortedLinks at h1 h2
    rw [(List.perm_insertionSort _ _).mem_iff, mem_linkList] at h1 h2
    omega
  · exact ((fullspots_nodup f).product (fullspots_nodup f)).filter _

/-- (A or B) and C or not (A or B or C), with the atoms 0, 1 and 2: full spots 0, 5, 6, 7 -/
example : ∃ f : Boolf, Reach f ∧ f.fullspots = [0, 5, 6, 7] ∧ f.layeredFullspots = .ok [[0], [], [5, 6], [7]] ∧ f.fullspotWeights = .ok [0, 2, 3] ∧
    f.fullspotlinksByWeight = .ok [(2, [(5, 7), (6, 7)])] ∧ f.numberOfFullspotlinks = .ok 2 := by
  obtain ⟨_, _, e2⟩ := newTT_explicit ['1', '0', '0', '0', '0', '1', '1', '1'] [true, false, false, false, false, true, true, true] [0, 1, 2] 3
    (by decide) (by decide) (by decide) (by intro n; simp; omega) (by decide) (by decide)
  exact ⟨_, e2.reach, by decide +kernel, by decide +kernel, by decide +kernel, by decide +kernel, by decide +kernel⟩

end Verif.BF
