import Verif.Boolf.Props48

/-!
# The minimal representative of a clan: the steps
-/

namespace Verif.BF
open Verif.Py Verif.BV Verif.P Verif.W Verif.SP
open Verif.A hiding Mat

/-- The permutations for which the entry of the twin is true. -/
theorem clanWrapper_spec {n H : Nat} (hH : H < 2 ^ n) {a : Nat → Bool} {layers : Dict Nat (List Nat × List Nat)} {ratios : Dict Nat Rat} (hl : Layers n a layers ratios)
    {P : Nat → Perm} (hP : ∀ k, intToPerm k = .ok (P k)) :
    ∃ l, clanSchouteWrapper H n layers ratios = .ok l ∧ ∀ k, k ∈ l ↔ k < Nat.factorial n ∧ a (pre n (P k).get H) = true := by
  have key : ∀ b, ∃ found, foundLoop H n (layerPlaces n a (ones n H) b) [] = .ok found ∧ ∀ k, k ∈ found ↔ k < Nat.factorial n ∧ a (pre n (P k).get H) = b := by
    intro b
    obtain ⟨found, h1, h2⟩ := foundLoop_spec hH hP (layerPlaces n a (ones n H) b) (fun K hK => ⟨(mem_layerPlaces.1 hK).1, (mem_layerPlaces.1 hK).2.1⟩) []
    refine ⟨found, h1, fun k => ?_⟩
    rw [h2, mem_layerPlaces]
    constructor
    · rintro (h | ⟨h, _, _, h'⟩)
      · simp at h
      · exact ⟨h, h'⟩
    · rintro ⟨h, h'⟩
      exact .inr ⟨h, pre_lt _ _ _, ones_pre (below_of_index h (hP k)) H, h'⟩
  obtain ⟨ratio, q1, _⟩ := hl.ratio _ (ones_le n H)
  unfold clanSchouteWrapper dictGet
  rw [weight_ones hH]
  simp only [q1, hl.layer _ (ones_le n H), bind, Except.bind]
  by_cases hr : ratio > 1 / 2
  · obtain ⟨found, h1, h2⟩ := key false
    simp only [hr, decide_true, Bool.not_true, Bool.false_eq_true, if_false, if_true, h1]
    refine ⟨_, rfl, fun k => ?_⟩
    rw [List.mem_filter, List.mem_range]
    simp only [Bool.not_eq_true', ← Bool.not_eq_true, List.contains_iff_mem, h2]
    constructor
    · rintro ⟨h, h'⟩
      refine ⟨h, ?_⟩
      by_contra hc
      exact h' ⟨h, hc⟩
    · rintro ⟨h, h'⟩
      exact ⟨h, fun hc => hc.2 h'⟩
  · obtain ⟨found, h1, h2⟩ := key true
    simp only [hr, decide_false, Bool.not_false, Bool.false_eq_true, if_false, if_true, h1]
    exact ⟨_, rfl, h2⟩

/-- the saved rows -/
def RowsInv (n : Nat) (a : Nat → Bool) (P : Nat → Perm) (rows : Dict Nat (List Nat)) : Prop :=
  ∀ key l, rows.get? key = some l → ∀ k, k ∈ l ↔ k < Nat.factorial n ∧ a (pre n (P k).get key) = true

theorem blueRows_spec {n : Nat} {a : Nat → Bool} {layers : Dict Nat (List Nat × List Nat)} {ratios : Dict Nat Rat} (hl : Layers n a layers ratios)
    {P : Nat → Perm} (hP : ∀ k, intToPerm k = .ok (P k)) (keys : List Nat) (hk : ∀ key ∈ keys, key < 2 ^ n) (rows : Dict Nat (List Nat)) (hr : RowsInv n a P rows) :
    ∃ rows', blueRowsLoop n layers ratios keys rows = .ok rows' ∧ RowsInv n a P rows' ∧ (∀ key ∈ keys, ∃ l, rows'.get? key = some l) ∧
      ∀ key l, rows.get? key = some l → ∃ l', rows'.get? key = some l' := by
  induction keys generalizing rows with
  | nil => exact ⟨rows, rfl, hr, by simp, fun key l h => ⟨l, h⟩⟩
  | cons key rest ih =>
    obtain ⟨l, l1, l2⟩ := clanWrapper_spec (hk key (by simp)) hl hP
    have hr' : RowsInv n a P (rows.set key l) := by
      intro key' l' h
      rw [Dict.get?_set] at h
      split at h
      · rename_i e
        subst e
        obtain rfl := Option.some.inj h
        exact l2
      · exact hr key' l' h
    obtain ⟨rows', h1, h2, h3, h4⟩ := ih (fun key hkey => hk key (by simp [hkey])) (rows.set key l) hr'
    refine ⟨rows', ?_, h2, fun key' hkey' => ?_, fun key' l' h => ?_⟩
    · unfold blueRowsLoop
      rw [l1]
      exact h1
    · rcases List.mem_cons.1 hkey' with rfl | h
      · exact h4 _ l (by rw [Dict.get?_set, if_pos rfl])
      · exact h3 _ h
    · by_cases hkk : key = key'
      · exact h4 _ l (by rw [Dict.get?_set, if_pos hkk])
      · exact h4 _ l' (by rw [Dict.get?_set, if_neg hkk]; exact h)

/-- the rows of a blue matrix are available -/
theorem blueRows_all {n : Nat} {a : Nat → Bool} {layers : Dict Nat (List Nat × List Nat)} {ratios : Dict Nat Rat} (hl : Layers n a layers ratios)
    {P : Nat → Perm} (hP : ∀ k, intToPerm k = .ok (P k)) (keys : List Nat) (hk : ∀ key ∈ keys, key < 2 ^ n) (rows : Dict Nat (List Nat)) (hr : RowsInv n a P rows) :
    ∃ rows', blueRowsLoop n layers ratios (keys.dedup.filter fun key => !rows.keys.contains key) rows = .ok rows' ∧ RowsInv n a P rows' ∧
      ∀ key ∈ keys, ∃ l, rows'.get? key = some l := by
  obtain ⟨rows', h1, h2, h3, h4⟩ := blueRows_spec hl hP (keys.dedup.filter fun key => !rows.keys.contains key)
    (fun key h => hk key (List.mem_dedup.1 (List.mem_filter.1 h).1)) rows hr
  refine ⟨rows', h1, h2, fun key hkey => ?_⟩
  by_cases hc : key ∈ rows.keys
  · obtain ⟨l, hl⟩ := Dict.mem_keys_iff.1 hc
    exact h4 key l hl
  · exact h3 key (List.mem_filter.2 ⟨List.mem_dedup.2 hkey, by simpa using hc⟩)

theorem xor_of_disj {p L : Nat} (h : disj p L = true) : p ^^^ L = L + p := by
  induction p using Nat.strong_induction_on generalizing L with
  | _ p ih =>
    by_cases hp : p = 0
    · subst hp
      rw [Nat.zero_xor, Nat.add_zero]
    · have h' : disj (p / 2) (L / 2) = true := by
        rw [disj_iff] at h ⊢
        intro k hk
        rw [Nat.testBit_div_two] at hk ⊢
        exact h _ hk
      have ih := ih (p / 2) (by omega) h'
      have h0 := disj_iff.1 h 0
      rw [Nat.testBit_zero, Nat.testBit_zero] at h0
      simp only [decide_eq_true_eq, decide_eq_false_iff_not] at h0
      have e1 : (p ^^^ L) / 2 = p / 2 ^^^ L / 2 := Nat.xor_div_two
      have e2 : (p ^^^ L) % 2 = (p + L) % 2 := by
        have := Nat.xor_mod_two_eq (m := p) (n := L)
        omega
      omega

/-- the truth values of a blue column -/
def smallOf (n : Nat) (a : Nat → Bool) (P : Nat → Perm) (blueKeys : List Nat) (k : Nat) : List Bool := blueKeys.map fun key => a (pre n (P k).get key)

/-- the green column that belongs to a blue column, negated -/
def bigOf (n L : Nat) (small : List Bool) : List Bool :=
  (List.range (2 ^ n)).map fun c => !subXor (freeAtoms L n).length (fun i => small.getD i false) (comp (freeAtoms L n) c)

theorem twin_negated {n L : Nat} (hL : L < 2 ^ n) (first : Bool) (others : List Bool) (hs : (first :: others).length = 2 ^ (freeAtoms L n).length) :
    sierpinskiTwin ((!first) :: others) L n = .ok (bigOf n L (first :: others)) := by
  rw [sierpinskiTwin_spec hL _ (by rw [← hs]; rfl)]
  congr 1
  apply List.map_congr_left
  intro c _
  have hpos := Nat.two_pow_pos (freeAtoms L n).length
  have : ∀ i < 2 ^ (freeAtoms L n).length, ((!first) :: others).getD i false = ((first :: others).getD i false ^^ decide (i = 0)) := by
    intro i _
    cases i with
    | zero => simp
    | succ i => simp
  rw [subXor_congr this, subXor_xor, subXor_single hpos]
  have : sub 0 (comp (freeAtoms L n) c) = true := sub_iff.2 (by simp)
  rw [this, Bool.xor_true]

/-- the dictionaries of blue columns -/
structure SmallInv (n L : Nat) (sm : Nat → List Bool) (done : Nat → Prop) (cols : Dict (List Bool) (List Nat)) (bigs : Dict (List Bool) (List Bool)) : Prop where
  nodup : cols.keys.Nodup
  sound : ∀ s ks, cols.get? s = some ks → ∀ k ∈ ks, done k ∧ sm k = s
  complete : ∀ k, done k → ∃ ks, cols.get? (sm k) = some ks ∧ k ∈ ks
  big : ∀ s b, bigs.get? s = some b → b = bigOf n L s
  both : ∀ s ks, cols.get? s = some ks → bigs.get? s = some (bigOf n L s)

theorem smallLoop_spec {n L : Nat} (hL : L < 2 ^ n) {a : Nat → Bool} {P : Nat → Perm} {rows : Dict Nat (List Nat)} (hr : RowsInv n a P rows) {blueKeys : List Nat}
    (hb : blueKeys.length = 2 ^ (freeAtoms L n).length) (ha : ∀ key ∈ blueKeys, ∃ l, rows.get? key = some l) (ks : List Nat) (hks : ∀ k ∈ ks, k < Nat.factorial n)
    {done : Nat → Prop} {cols : Dict (List Bool) (List Nat)} {bigs : Dict (List Bool) (List Bool)} (hI : SmallInv n L (smallOf n a P blueKeys) done cols bigs) :
    ∃ cols' bigs', smallLoop L n blueKeys rows ks cols bigs = .ok (cols', bigs') ∧ SmallInv n L (smallOf n a P blueKeys) (fun k => done k ∨ k ∈ ks) cols' bigs' := by
  induction ks generalizing done cols bigs with
  | nil => exact ⟨cols, bigs, rfl, by simpa using hI⟩
  | cons k rest ih =>
    have hk := hks k (by simp)
    have hsm : (blueKeys.mapM fun key => do return (← dictGet rows key).contains k) = .ok (smallOf n a P blueKeys k) := by
      apply mapM_ok
      intro key hkey
      obtain ⟨l, hl⟩ := ha key hkey
      unfold dictGet
      rw [hl]
      simp only [bind, Except.bind, pure, Except.pure]
      congr 1
      rw [Bool.eq_iff_iff, List.contains_iff_mem, hr key l hl]
      exact ⟨fun h => h.2, fun h => ⟨hk, h⟩⟩
    have hlen : (smallOf n a P blueKeys k).length = 2 ^ (freeAtoms L n).length := by
      unfold smallOf; rw [List.length_map, hb]
    have hstep : ∃ bigs', (∀ s, bigs'.get? s = if smallOf n a P blueKeys k = s then some (bigOf n L s) else bigs.get? s) ∧
        smallLoop L n blueKeys rows (k :: rest) cols bigs =
          smallLoop L n blueKeys rows rest (cols.set (smallOf n a P blueKeys k) (((cols.get? (smallOf n a P blueKeys k)).getD []) ++ [k])) bigs' := by
      cases hbg : bigs.get? (smallOf n a P blueKeys k) with
      | some b =>
        refine ⟨bigs, fun s => ?_, ?_⟩
        · split
          · rename_i e
            subst e
            rw [hbg, hI.big _ _ hbg]
          · rfl
        · conv_lhs => unfold smallLoop
          rw [hsm]
          simp only [bind, Except.bind]
          rw [hbg]
          rfl
      | none =>
        refine ⟨bigs.set (smallOf n a P blueKeys k) (bigOf n L (smallOf n a P blueKeys k)), fun s => ?_, ?_⟩
        · rw [Dict.get?_set]
          split
          · rename_i e
            rw [e]
          · rfl
        · conv_lhs => unfold smallLoop
          rw [hsm]
          simp only [bind, Except.bind]
          rw [hbg]
          simp only
          have hpos := Nat.two_pow_pos (freeAtoms L n).length
          generalize smallOf n a P blueKeys k = s at hlen ⊢
          cases s with
          | nil => rw [List.length_nil] at hlen; omega
          | cons first others =>
            simp only [pure, Except.pure]
            rw [twin_negated hL first others hlen]
    obtain ⟨bigs', hbigs, heq⟩ := hstep
    rw [heq]
    have hI' : SmallInv n L (smallOf n a P blueKeys) (fun j => done j ∨ j = k)
        (cols.set (smallOf n a P blueKeys k) (((cols.get? (smallOf n a P blueKeys k)).getD []) ++ [k])) bigs' := by
      refine ⟨Dict.nodup_keys_set hI.nodup _ _, fun s js h j hj => ?_, fun j hj => ?_, fun s b h => ?_, fun s js h => ?_⟩
      · rw [Dict.get?_set] at h
        split at h
        · rename_i e
          subst e
          obtain rfl := Option.some.inj h
          rcases List.mem_append.1 hj with hj | hj
          · cases hcg : cols.get? (smallOf n a P blueKeys k) with
            | none => rw [hcg] at hj; simp at hj
            | some js' =>
              rw [hcg] at hj
              obtain ⟨h1, h2⟩ := hI.sound _ _ hcg j hj
              exact ⟨.inl h1, h2⟩
          · rw [List.mem_singleton] at hj
            subst hj
            exact ⟨.inr rfl, rfl⟩
        · obtain ⟨h1, h2⟩ := hI.sound _ _ h j hj
          exact ⟨.inl h1, h2⟩
      · rw [Dict.get?_set]
        rcases hj with hj | rfl
        · obtain ⟨js, h1, h2⟩ := hI.complete j hj
          split
          · rename_i e
            exact ⟨_, rfl, by rw [e, h1]; simp [h2]⟩
          · exact ⟨js, h1, h2⟩
        · exact ⟨_, by rw [if_pos rfl], by simp⟩
      · rw [hbigs] at h
        split at h
        · exact (Option.some.inj h).symm
        · exact hI.big _ _ h
      · rw [hbigs]
        split
        · rfl
        · rename_i hne
          rw [Dict.get?_set, if_neg hne] at h
          exact hI.both _ _ h
    obtain ⟨cols', bigs'', h1, h2⟩ := ih (fun j hj => hks j (by simp [hj])) hI'
    refine ⟨cols', bigs'', h1, ?_⟩
    have : (fun j => (done j ∨ j = k) ∨ j ∈ rest) = fun j => done j ∨ j ∈ k :: rest := by
      funext j
      rw [List.mem_cons, or_assoc]
    rw [← this]
    exact h2

theorem applicantsLoop_spec {n L : Nat} {bigs : Dict (List Bool) (List Bool)} (items : List (List Bool × List Nat)) (hb : ∀ s ks, (s, ks) ∈ items → bigs.get? s = some (bigOf n L s))
    (init : List (Nat × Nat)) :
    ∃ res, applicantsLoop bigs items init = .ok res ∧
      ∀ c : Nat × Nat, c ∈ res ↔ c ∈ init ∨ ∃ s ks, (s, ks) ∈ items ∧ c.2 ∈ ks ∧ (bigOf n L s)[c.1]? = some true := by
  induction items generalizing init with
  | nil => exact ⟨init, rfl, by simp⟩
  | cons it rest ih =>
    obtain ⟨s, ks⟩ := it
    obtain ⟨res, h1, h2⟩ := ih (fun s ks h => hb s ks (by simp [h]))
      (init ++ ((bigOf n L s).zipIdx.filter fun vk => vk.1).flatMap fun vk => ks.map fun colIndex => (vk.2, colIndex))
    refine ⟨res, ?_, fun c => ?_⟩
    · unfold applicantsLoop dictGet
      rw [hb s ks (by simp)]
      exact h1
    · rw [h2, List.mem_append, or_assoc]
      apply or_congr Iff.rfl
      have hm : c ∈ (((bigOf n L s).zipIdx.filter fun vk => vk.1).flatMap fun vk => ks.map fun colIndex => (vk.2, colIndex)) ↔ c.2 ∈ ks ∧ (bigOf n L s)[c.1]? = some true := by
        rw [List.mem_flatMap]
        constructor
        · rintro ⟨⟨v, i⟩, hv, hc⟩
          obtain ⟨hz, hv⟩ := List.mem_filter.1 hv
          obtain ⟨j, hj, rfl⟩ := List.mem_map.1 hc
          rw [List.mk_mem_zipIdx_iff_getElem?] at hz
          simp only at hv
          subst hv
          exact ⟨hj, hz⟩
        · rintro ⟨h1, h2⟩
          exact ⟨(true, c.1), List.mem_filter.2 ⟨List.mk_mem_zipIdx_iff_getElem?.2 h2, rfl⟩, List.mem_map.2 ⟨c.2, h1, rfl⟩⟩
      rw [hm]
      constructor
      · rintro (⟨h1, h2⟩ | ⟨s', ks', h1, h2⟩)
        · exact ⟨s, ks, by simp, h1, h2⟩
        · exact ⟨s', ks', by simp [h1], h2⟩
      · rintro ⟨s', ks', h1, h2⟩
        rcases List.mem_cons.1 h1 with h | h
        · cases h
          exact .inl h2
        · exact .inr ⟨s', ks', h, h2⟩

/-- The applicants of one step are the pairs with a false entry. -/
theorem applicants_spec {n L : Nat} (hL : L < 2 ^ n) {a : Nat → Bool} {P : Nat → Perm} {rows : Dict Nat (List Nat)} (hr : RowsInv n a P rows)
    (ha : ∀ i < 2 ^ (freeAtoms L n).length, ∃ l, rows.get? (L + rowEntry (freeAtoms L n) i) = some l) :
    ∃ cols bigs res, smallLoop L n ((List.range (2 ^ (freeAtoms L n).length)).map fun i => L + rowEntry (freeAtoms L n) i) rows (List.range (Nat.factorial n)) [] [] = .ok (cols, bigs) ∧
      applicantsLoop bigs cols [] = .ok res ∧
      ∀ c : Nat × Nat, c ∈ res ↔ (c.1 < 2 ^ n ∧ c.2 < Nat.factorial n) ∧ nsum n c.1 (fun H => a (pre n (P c.2).get H)) L = false := by
  generalize hK : ((List.range (2 ^ (freeAtoms L n).length)).map fun i => L + rowEntry (freeAtoms L n) i) = blueKeys
  have hI0 : SmallInv n L (smallOf n a P blueKeys) (fun _ => False) [] [] := by
    refine ⟨?_, ?_, ?_, ?_, ?_⟩ <;> simp [Dict.keys, Dict.get?]
  obtain ⟨cols, bigs, h1, h2⟩ := smallLoop_spec hL hr (blueKeys := blueKeys) (by rw [← hK]; simp) (by
    intro key hkey
    rw [← hK] at hkey
    obtain ⟨i, hi, rfl⟩ := List.mem_map.1 hkey
    exact ha i (List.mem_range.1 hi)) (List.range (Nat.factorial n)) (fun k hk => List.mem_range.1 hk) hI0
  obtain ⟨res, r1, r2⟩ := applicantsLoop_spec (n := n) (L := L) (bigs := bigs) cols (fun s ks h => h2.both s ks (Dict.mem_get? h2.nodup h)) []
  refine ⟨cols, bigs, res, h1, r1, fun c => ?_⟩
  rw [r2]
  have hbig : ∀ k m, (bigOf n L (smallOf n a P blueKeys k))[m]? = some true ↔ m < 2 ^ n ∧ nsum n m (fun H => a (pre n (P k).get H)) L = false := by
    intro k m
    unfold bigOf
    by_cases hm : m < 2 ^ n
    · rw [List.getElem?_map, List.getElem?_range hm, Option.map_some, nsum_twin]
      have : ∀ i < 2 ^ (freeAtoms L n).length, (smallOf n a P blueKeys k).getD i false = a (pre n (P k).get (L + rowEntry (freeAtoms L n) i)) := by
        intro i hi
        unfold smallOf
        rw [← hK, List.getD_eq_getElem?_getD, List.getElem?_map, List.getElem?_map, List.getElem?_range hi]
        rfl
      rw [subXor_congr this]
      simp [hm]
    · rw [List.getElem?_eq_none (by simpa using hm)]
      simp [hm]
  constructor
  · rintro (h | ⟨s, ks, k1, k2, k3⟩)
    · simp at h
    · obtain ⟨d1, d2⟩ := h2.sound s ks (Dict.mem_get? h2.nodup k1) _ k2
      rw [← d2, hbig] at k3
      rw [false_or, List.mem_range] at d1
      exact ⟨⟨k3.1, d1⟩, k3.2⟩
  · rintro ⟨⟨k1, k2⟩, k3⟩
    obtain ⟨ks, e1, e2⟩ := h2.complete c.2 (.inr (List.mem_range.2 k2))
    exact .inr ⟨_, ks, Dict.get?_mem e1, e2, (hbig _ _).2 ⟨k1, k3⟩⟩

end Verif.BF
