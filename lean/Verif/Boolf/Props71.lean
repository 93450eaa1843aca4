import Verif.Boolf.Model18
import Verif.Boolf.Props51

/-!
# C137: the prototype of `clan_minrep`
-/

namespace Verif.BF
open Verif.Py Verif.BV Verif.P Verif.W Verif.SP
open Verif.A hiding Mat

theorem blueRow_spec (galore : Nat) (places : List Nat) (h : ∀ k ∈ places, k < galore) :
    blueRow galore places = .ok ((List.range galore).map fun k => decide (k ∈ places)) := by
  have key : ∀ (places : List Nat) (w : Nat → Bool), (∀ k ∈ places, k < galore) →
      places.foldlM (fun row place => if place < row.length then .ok (row.set place true) else .error .indexError) ((List.range galore).map w) =
        (Except.ok ((List.range galore).map fun k => w k || decide (k ∈ places)) : Except Err (List Bool)) := by
    intro places
    induction places with
    | nil => intro w _; simp [pure, Except.pure]
    | cons p rest ih =>
      intro w hp
      rw [List.foldlM_cons, if_pos (by simpa using hp p (by simp))]
      simp only [bind, Except.bind]
      have e : ((List.range galore).map w).set p true = (List.range galore).map fun k => w k || decide (k = p) := by
        apply List.ext_getElem (by simp)
        intro i h1 h2
        simp only [List.getElem_set, List.getElem_map, List.getElem_range]
        by_cases hip : p = i
        · simp [hip]
        · rw [if_neg hip, decide_eq_false (fun h => hip h.symm), Bool.or_false]
      rw [e, ih _ (fun k hk => hp k (by simp [hk]))]
      congr 1
      apply List.map_congr_left
      intro k _
      rw [Bool.or_assoc]
      congr 1
      rw [Bool.eq_iff_iff]
      simp
  unfold blueRow
  have := key places (fun _ => false) h
  simp only [Bool.false_or] at this
  rw [← this]
  congr 1
  simp [List.map_const']

/-- the saved rows -/
def ProtoRows (n : Nat) (a : Nat → Bool) (P : Nat → Perm) (rows : Dict Nat (List Bool)) : Prop :=
  ∀ key row, rows.get? key = some row → row = (List.range (Nat.factorial n)).map fun k => a (pre n (P k).get key)

theorem protoRows_spec {n : Nat} {a : Nat → Bool} {layers : Dict Nat (List Nat × List Nat)} {ratios : Dict Nat Rat} (hl : Layers n a layers ratios)
    {P : Nat → Perm} (hP : ∀ k, intToPerm k = .ok (P k)) (keys : List Nat) (hk : ∀ key ∈ keys, key < 2 ^ n) (rows : Dict Nat (List Bool)) (hr : ProtoRows n a P rows) :
    ∃ rows', protoRowsLoop n (Nat.factorial n) layers ratios keys rows = .ok rows' ∧ ProtoRows n a P rows' ∧ (∀ key ∈ keys, ∃ l, rows'.get? key = some l) ∧
      ∀ key l, rows.get? key = some l → ∃ l', rows'.get? key = some l' := by
  induction keys generalizing rows with
  | nil => exact ⟨rows, rfl, hr, by simp, fun key l h => ⟨l, h⟩⟩
  | cons key rest ih =>
    have hk' : ∀ key ∈ rest, key < 2 ^ n := fun key hkey => hk key (by simp [hkey])
    by_cases hin : key ∈ rows.keys
    · obtain ⟨rows', h1, h2, h3, h4⟩ := ih hk' rows hr
      refine ⟨rows', by unfold protoRowsLoop; rw [if_pos hin]; exact h1, h2, fun key' hkey' => ?_, h4⟩
      rcases List.mem_cons.1 hkey' with rfl | h
      · obtain ⟨l, hl⟩ := Dict.mem_keys_iff.1 hin
        exact h4 _ l hl
      · exact h3 _ h
    · obtain ⟨l, l1, l2⟩ := clanWrapper_spec (hk key (by simp)) hl hP
      have hrow := blueRow_spec (Nat.factorial n) l fun k hk => ((l2 k).1 hk).1
      have hrow' : ((List.range (Nat.factorial n)).map fun k => decide (k ∈ l)) = (List.range (Nat.factorial n)).map fun k => a (pre n (P k).get key) := by
        apply List.map_congr_left
        intro k hk
        rw [Bool.eq_iff_iff, decide_eq_true_eq, l2]
        exact ⟨fun h => h.2, fun h => ⟨List.mem_range.1 hk, h⟩⟩
      rw [hrow'] at hrow
      generalize hR : ((List.range (Nat.factorial n)).map fun k => a (pre n (P k).get key)) = row at hrow
      have hr' : ProtoRows n a P (rows.set key row) := by
        intro key' l' h
        rw [Dict.get?_set] at h
        split at h
        · rename_i e
          subst e
          obtain rfl := Option.some.inj h
          exact hR.symm
        · exact hr key' l' h
      obtain ⟨rows', h1, h2, h3, h4⟩ := ih hk' (rows.set key row) hr'
      refine ⟨rows', ?_, h2, fun key' hkey' => ?_, fun key' l' h => ?_⟩
      · unfold protoRowsLoop
        rw [if_neg hin, l1]
        simp only [bind, Except.bind]
        rw [hrow]
        exact h1
      · rcases List.mem_cons.1 hkey' with rfl | h
        · exact h4 _ row (by rw [Dict.get?_set, if_pos rfl])
        · exact h3 _ h
      · by_cases hkk : key = key'
        · exact h4 _ row (by rw [Dict.get?_set, if_pos hkk])
        · exact h4 _ l' (by rw [Dict.get?_set, if_neg hkk]; exact h)

/-- the list with the first entry negated -/
def negFirst : List Bool → List Bool
  | [] => []
  | first :: others => (!first) :: others

theorem negFirst_negFirst (l : List Bool) : negFirst (negFirst l) = l := by cases l <;> simp [negFirst]

theorem length_bigOf (n L : Nat) (s : List Bool) : (bigOf n L s).length = 2 ^ n := by simp [bigOf]

/-- the dictionaries of blue columns -/
structure ProtoInv (n L : Nat) (sm : Nat → List Bool) (done : Nat → Prop) (cols : Dict (List Bool) (List Nat)) (bigs : Dict (List Bool) (List Bool)) : Prop where
  nodup : cols.keys.Nodup
  sound : ∀ s ks, cols.get? s = some ks → ∀ k ∈ ks, done k ∧ negFirst (sm k) = s
  complete : ∀ k, done k → ∃ ks, cols.get? (negFirst (sm k)) = some ks ∧ k ∈ ks
  big : ∀ s b, bigs.get? s = some b → b = bigOf n L (negFirst s)
  both : ∀ s ks, cols.get? s = some ks → bigs.get? s = some (bigOf n L (negFirst s))

theorem protoSmallLoop_spec {n L : Nat} (hL : L < 2 ^ n) {a : Nat → Bool} {P : Nat → Perm} {rows : Dict Nat (List Bool)} (hr : ProtoRows n a P rows) {blueKeys : List Nat}
    (hb : blueKeys.length = 2 ^ (freeAtoms L n).length) (ha : ∀ key ∈ blueKeys, ∃ l, rows.get? key = some l) (ks : List Nat) (hks : ∀ k ∈ ks, k < Nat.factorial n)
    {done : Nat → Prop} {cols : Dict (List Bool) (List Nat)} {bigs : Dict (List Bool) (List Bool)} (hI : ProtoInv n L (smallOf n a P blueKeys) done cols bigs) :
    ∃ cols' bigs', protoSmallLoop L n blueKeys rows ks cols bigs = .ok (cols', bigs') ∧ ProtoInv n L (smallOf n a P blueKeys) (fun k => done k ∨ k ∈ ks) cols' bigs' := by
  induction ks generalizing done cols bigs with
  | nil => exact ⟨cols, bigs, rfl, by simpa using hI⟩
  | cons k rest ih =>
    have hk := hks k (by simp)
    have hsm : blueKeys.mapM (blueEntry rows k) = .ok (smallOf n a P blueKeys k) := by
      apply mapM_ok
      intro key hkey
      obtain ⟨l, hl⟩ := ha key hkey
      unfold blueEntry dictGet
      rw [hl]
      simp only [bind, Except.bind]
      rw [hr key l hl, List.getElem?_map, List.getElem?_range hk]
      rfl
    have hlen : (smallOf n a P blueKeys k).length = 2 ^ (freeAtoms L n).length := by
      unfold smallOf; rw [List.length_map, hb]
    obtain ⟨first, others, hfo⟩ : ∃ first others, smallOf n a P blueKeys k = first :: others := by
      have hpos := Nat.two_pow_pos (freeAtoms L n).length
      cases h : smallOf n a P blueKeys k with
      | nil => rw [h, List.length_nil] at hlen; omega
      | cons first others => exact ⟨first, others, rfl⟩
    have hstep : ∃ bigs', (∀ s, bigs'.get? s = if negFirst (smallOf n a P blueKeys k) = s then some (bigOf n L (negFirst s)) else bigs.get? s) ∧
        protoSmallLoop L n blueKeys rows (k :: rest) cols bigs =
          protoSmallLoop L n blueKeys rows rest
            (cols.set (negFirst (smallOf n a P blueKeys k)) (((cols.get? (negFirst (smallOf n a P blueKeys k))).getD []) ++ [k])) bigs' := by
      cases hbg : bigs.get? (negFirst (smallOf n a P blueKeys k)) with
      | some b =>
        refine ⟨bigs, fun s => ?_, ?_⟩
        · split
          · rename_i e
            subst e
            rw [hbg, hI.big _ _ hbg]
          · rfl
        · conv_lhs => unfold protoSmallLoop
          rw [hsm]
          rw [hfo] at hbg ⊢
          simp only [bind, Except.bind, pure, Except.pure]
          rw [show bigs.get? ((!first) :: others) = some b from hbg]
          rfl
      | none =>
        refine ⟨bigs.set (negFirst (smallOf n a P blueKeys k)) (bigOf n L (smallOf n a P blueKeys k)), fun s => ?_, ?_⟩
        · rw [Dict.get?_set]
          split
          · rename_i e
            rw [← e, negFirst_negFirst]
          · rfl
        · conv_lhs => unfold protoSmallLoop
          rw [hsm]
          rw [hfo] at hbg hlen ⊢
          simp only [bind, Except.bind, pure, Except.pure]
          rw [show bigs.get? ((!first) :: others) = none from hbg]
          simp only
          rw [twin_negated hL first others hlen]
          rfl
    obtain ⟨bigs', hbigs, heq⟩ := hstep
    rw [heq]
    have hI' : ProtoInv n L (smallOf n a P blueKeys) (fun j => done j ∨ j = k)
        (cols.set (negFirst (smallOf n a P blueKeys k)) (((cols.get? (negFirst (smallOf n a P blueKeys k))).getD []) ++ [k])) bigs' := by
      refine ⟨Dict.nodup_keys_set hI.nodup _ _, fun s js h j hj => ?_, fun j hj => ?_, fun s b h => ?_, fun s js h => ?_⟩
      · rw [Dict.get?_set] at h
        split at h
        · rename_i e
          subst e
          obtain rfl := Option.some.inj h
          rcases List.mem_append.1 hj with hj | hj
          · cases hcg : cols.get? (negFirst (smallOf n a P blueKeys k)) with
            | none => rw [hcg] at hj; simp at hj
            | some js' =>
              rw [hcg] at hj
              obtain ⟨h1, h2⟩ := hI.sound _ _ hcg j hj
              exact ⟨.inl h1, h2⟩
          · rw [List.mem_singleton] at hj
            subst hj
            exact ⟨.inr rfl, rfl⟩
        · obtain ⟨h1, h2⟩ := hI.sound _ _ h j hj
          exact ⟨.inl h1, h2⟩
      · rw [Dict.get?_set]
        rcases hj with hj | rfl
        · obtain ⟨js, h1, h2⟩ := hI.complete j hj
          split
          · rename_i e
            exact ⟨_, rfl, by rw [e, h1]; simp [h2]⟩
          · exact ⟨js, h1, h2⟩
        · exact ⟨_, by rw [if_pos rfl], by simp⟩
      · rw [hbigs] at h
        split at h
        · exact (Option.some.inj h).symm
        · exact hI.big _ _ h
      · rw [hbigs]
        split
        · rfl
        · rename_i hne
          rw [Dict.get?_set, if_neg hne] at h
          exact hI.both _ _ h
    obtain ⟨cols', bigs'', h1, h2⟩ := ih (fun j hj => hks j (by simp [hj])) hI'
    refine ⟨cols', bigs'', h1, ?_⟩
    have : (fun j => (done j ∨ j = k) ∨ j ∈ rest) = fun j => done j ∨ j ∈ k :: rest := by
      funext j
      rw [List.mem_cons, or_assoc]
    rw [← this]
    exact h2

theorem setColumns_spec (plenty : Nat) (big : List Bool) (hb : big.length = plenty) (ks : List Nat) (M : List (List Bool)) (h : ∀ k ∈ ks, k < M.length) :
    ∃ M', setColumns plenty big ks M = .ok M' ∧ M'.length = M.length ∧ ∀ (k : Nat), M'[k]? = if k ∈ ks then some big else M[k]? := by
  induction ks generalizing M with
  | nil => exact ⟨M, rfl, rfl, by simp⟩
  | cons k rest ih =>
    obtain ⟨M', h1, h2, h3⟩ := ih (M.set k big) (fun j hj => by simpa using h j (by simp [hj]))
    refine ⟨M', ?_, by simpa using h2, fun j => ?_⟩
    · unfold setColumns
      rw [if_pos (h k (by simp)), if_pos hb]
      exact h1
    · rw [h3]
      by_cases hj : j ∈ rest
      · rw [if_pos hj, if_pos (by simp [hj])]
      · rw [if_neg hj, List.getElem?_set]
        by_cases hkj : k = j
        · subst hkj
          rw [if_pos rfl, if_pos (h k (by simp)), if_pos (by simp)]
        · rw [if_neg hkj, if_neg (by simp [hj, Ne.symm hkj])]

theorem protoApplicants_spec {plenty : Nat} {B : List Bool → List Bool} (hB : ∀ s, (B s).length = plenty) {bigs : Dict (List Bool) (List Bool)} {sm : Nat → List Bool}
    (items : List (List Bool × List Nat)) (hb : ∀ s ks, (s, ks) ∈ items → bigs.get? s = some (B s)) (hs : ∀ s ks, (s, ks) ∈ items → ∀ k ∈ ks, sm k = s)
    (M : List (List Bool)) (hk : ∀ s ks, (s, ks) ∈ items → ∀ k ∈ ks, k < M.length) :
    ∃ M', protoApplicants plenty bigs items M = .ok M' ∧ M'.length = M.length ∧
      ∀ (k : Nat), ((∃ s ks, (s, ks) ∈ items ∧ k ∈ ks) → M'[k]? = some (B (sm k))) ∧ ((¬ ∃ s ks, (s, ks) ∈ items ∧ k ∈ ks) → M'[k]? = M[k]?) := by
  induction items generalizing M with
  | nil => exact ⟨M, rfl, rfl, fun k => ⟨fun ⟨_, _, h, _⟩ => by simp at h, fun _ => rfl⟩⟩
  | cons it rest ih =>
    obtain ⟨s, ks⟩ := it
    obtain ⟨M1, a1, a2, a3⟩ := setColumns_spec plenty (B s) (hB s) ks M (hk s ks (by simp))
    obtain ⟨M2, b1, b2, b3⟩ := ih (fun s ks h => hb s ks (by simp [h])) (fun s ks h => hs s ks (by simp [h])) M1
      (fun s ks h k hkk => by rw [a2]; exact hk s ks (by simp [h]) k hkk)
    refine ⟨M2, ?_, b2.trans a2, fun k => ?_⟩
    · unfold protoApplicants dictGet
      rw [hb s ks (by simp)]
      simp only [bind, Except.bind]
      rw [a1]
      exact b1
    · by_cases hr : ∃ s ks, (s, ks) ∈ rest ∧ k ∈ ks
      · refine ⟨fun _ => (b3 k).1 hr, fun h => absurd ?_ h⟩
        obtain ⟨s', ks', h1, h2⟩ := hr
        exact ⟨s', ks', by simp [h1], h2⟩
      · rw [(b3 k).2 hr, a3]
        constructor
        · rintro ⟨s', ks', h1, h2⟩
          rcases List.mem_cons.1 h1 with h | h
          · cases h
            rw [if_pos h2, hs s ks (by simp) k h2]
          · exact absurd ⟨s', ks', h, h2⟩ hr
        · intro h
          rw [if_neg fun h2 => h ⟨s, ks, by simp, h2⟩]

theorem mem_nonzero {plenty galore : Nat} {M : List (List Bool)} {c : Nat × Nat} :
    c ∈ nonzero plenty galore M ↔ (c.1 < plenty ∧ c.2 < galore) ∧ (M.getD c.2 []).getD c.1 false = true := by
  obtain ⟨m, k⟩ := c
  unfold nonzero
  simp only [List.mem_flatMap, List.mem_map, List.mem_filter, List.mem_range, Prod.mk.injEq]
  constructor
  · rintro ⟨m', h1, k', ⟨h2, h3⟩, rfl, rfl⟩
    exact ⟨⟨h1, h2⟩, h3⟩
  · rintro ⟨⟨h1, h2⟩, h3⟩
    exact ⟨m, h1, k, ⟨h2, h3⟩, rfl, rfl⟩

theorem getD_zipWith_and (x y : List Bool) (m : Nat) : (List.zipWith Bool.and x y).getD m false = (x.getD m false && y.getD m false) := by
  simp only [List.getD_eq_getElem?_getD, List.getElem?_zipWith]
  cases x[m]? <;> cases y[m]? <;> simp

theorem getD_intersection (C A : List (List Bool)) (k m : Nat) :
    ((List.zipWith (List.zipWith Bool.and) C A).getD k []).getD m false = ((C.getD k []).getD m false && (A.getD k []).getD m false) := by
  rw [← getD_zipWith_and]
  congr 1
  simp only [List.getD_eq_getElem?_getD, List.getElem?_zipWith]
  cases C[k]? <;> cases A[k]? <;> simp

/-- The applicants of one step are the pairs with a false entry. -/
theorem protoColumns_spec {n L : Nat} (hL : L < 2 ^ n) {a : Nat → Bool} {P : Nat → Perm} {rows : Dict Nat (List Bool)} (hr : ProtoRows n a P rows)
    (ha : ∀ i < 2 ^ (freeAtoms L n).length, ∃ l, rows.get? (L + rowEntry (freeAtoms L n) i) = some l) :
    ∃ cols bigs M, protoSmallLoop L n ((List.range (2 ^ (freeAtoms L n).length)).map fun i => L + rowEntry (freeAtoms L n) i) rows (List.range (Nat.factorial n)) [] [] = .ok (cols, bigs) ∧
      protoApplicants (2 ^ n) bigs cols (List.replicate (Nat.factorial n) (List.replicate (2 ^ n) false)) = .ok M ∧
      ∀ c : Nat × Nat, c.1 < 2 ^ n ∧ c.2 < Nat.factorial n → (M.getD c.2 []).getD c.1 false = !nsum n c.1 (fun H => a (pre n (P c.2).get H)) L := by
  generalize hK : ((List.range (2 ^ (freeAtoms L n).length)).map fun i => L + rowEntry (freeAtoms L n) i) = blueKeys
  have hI0 : ProtoInv n L (smallOf n a P blueKeys) (fun _ => False) [] [] := by
    refine ⟨?_, ?_, ?_, ?_, ?_⟩ <;> simp [Dict.keys, Dict.get?]
  obtain ⟨cols, bigs, h1, h2⟩ := protoSmallLoop_spec hL hr (blueKeys := blueKeys) (by rw [← hK]; simp) (by
    intro key hkey
    rw [← hK] at hkey
    obtain ⟨i, hi, rfl⟩ := List.mem_map.1 hkey
    exact ha i (List.mem_range.1 hi)) (List.range (Nat.factorial n)) (fun k hk => List.mem_range.1 hk) hI0
  obtain ⟨M, m1, m2, m3⟩ := protoApplicants_spec (plenty := 2 ^ n) (B := fun s => bigOf n L (negFirst s)) (fun s => length_bigOf _ _ _) (bigs := bigs)
    (sm := fun k => negFirst (smallOf n a P blueKeys k)) cols (fun s ks h => h2.both s ks (Dict.mem_get? h2.nodup h))
    (fun s ks h k hk => (h2.sound s ks (Dict.mem_get? h2.nodup h) k hk).2) (List.replicate (Nat.factorial n) (List.replicate (2 ^ n) false)) (fun s ks h k hk => by
      rcases (h2.sound s ks (Dict.mem_get? h2.nodup h) k hk).1 with h | h
      · exact h.elim
      · simpa using h)
  refine ⟨cols, bigs, M, h1, m1, fun c hc => ?_⟩
  obtain ⟨ks, k1, k2⟩ := h2.complete c.2 (.inr (List.mem_range.2 hc.2))
  have := (m3 c.2).1 ⟨_, ks, Dict.get?_mem k1, k2⟩
  rw [List.getD_eq_getElem?_getD, List.getD_eq_getElem?_getD, this, negFirst_negFirst, Option.getD_some]
  unfold bigOf
  rw [List.getElem?_map, List.getElem?_range hc.1, Option.map_some, Option.getD_some, nsum_twin]
  congr 1
  apply subXor_congr
  intro i hi
  unfold smallOf
  rw [← hK, List.getD_eq_getElem?_getD, List.getElem?_map, List.getElem?_map, List.getElem?_range hi]
  rfl

theorem protoLoop_spec {f : Boolf} (order : List Nat → List Nat) {n : Nat} (hord : ∀ L < 2 ^ n, order (freeAtoms L n) = freeAtoms L n) {a : Nat → Bool}
    {layers : Dict Nat (List Nat × List Nat)} {ratios : Dict Nat Rat} (hl : Layers n a layers ratios) {P : Nat → Perm} (hP : ∀ k, intToPerm k = .ok (P k))
    {g : Nat × Nat → Boolf} {z : Nat × Nat → Nat} (hm : ∀ c, f.pairMember c.1 c.2 = .ok (g c))
    (hz : ∀ c : Nat × Nat, c.1 < 2 ^ n ∧ c.2 < Nat.factorial n → ∀ L < 2 ^ n, (z c).testBit L = nsum n c.1 (fun H => a (pre n (P c.2).get H)) L)
    (hg : ∀ c d : Nat × Nat, c.1 < 2 ^ n ∧ c.2 < Nat.factorial n → d.1 < 2 ^ n ∧ d.2 < Nat.factorial n → z c = z d → g c = g d) (i : Nat) (hi : i ≤ 2 ^ n)
    (C : List (List Bool)) (rows : Dict Nat (List Bool)) (hr : ProtoRows n a P rows)
    (hI : Inv (fun c => c.1 < 2 ^ n ∧ c.2 < Nat.factorial n) z g i (some (nonzero (2 ^ n) (Nat.factorial n) C))) :
    ∃ c, f.protoLoop order n (2 ^ n) (Nat.factorial n) layers ratios (List.range' (2 ^ n - i) i) C rows = .ok (some (g c)) ∧
        Least (fun c => c.1 < 2 ^ n ∧ c.2 < Nat.factorial n) z 0 c := by
  induction i generalizing C rows with
  | zero => exact (hI.zero_false hg).elim
  | succ i ih =>
    have ih := ih (by omega)
    have hL : i < 2 ^ n := by omega
    have hlist : List.range' (2 ^ n - (i + 1)) (i + 1) = (2 ^ n - (i + 1)) :: List.range' (2 ^ n - i) i := by
      rw [List.range'_succ, show 2 ^ n - (i + 1) + 1 = 2 ^ n - i by omega]
    have hleft : 2 ^ n - (2 ^ n - (i + 1)) - 1 = i := by omega
    have hpe : (order (freeAtoms i n)).Perm (freeAtoms i n) := by rw [hord i hL]
    obtain ⟨b1, _⟩ := blueKeys_sorted hpe
    rw [hlist]
    unfold Boolf.protoLoop
    simp only [hleft]
    rw [intToSierpinskiRow_spec order hL hpe.length_eq]
    simp only [bind, Except.bind]
    rw [b1, hord i hL]
    have hnd : (freeAtoms i n).Nodup := (freeAtoms_asc i n).imp (fun h => Nat.ne_of_lt h)
    obtain ⟨rows', r1, r2, r3, _⟩ := protoRows_spec hl hP ((List.range (2 ^ (freeAtoms i n).length)).map fun j => i + rowEntry (freeAtoms i n) j) (by
      intro key hkey
      obtain ⟨j, _, rfl⟩ := List.mem_map.1 hkey
      exact add_rowEntry_lt hnd hL (fun x hx => mem_freeAtoms.1 hx) j) rows hr
    rw [r1]
    simp only
    obtain ⟨cols, bigs, M, s1, s2, s3⟩ := protoColumns_spec hL r2 (fun j hj => r3 _ (List.mem_map.2 ⟨j, List.mem_range.2 hj, rfl⟩))
    rw [s1]
    simp only
    rw [s2]
    simp only
    have hnew : ∀ c, c ∈ nonzero (2 ^ n) (Nat.factorial n) (List.zipWith (List.zipWith Bool.and) C M) ↔
        InState (fun c => c.1 < 2 ^ n ∧ c.2 < Nat.factorial n) (some (nonzero (2 ^ n) (Nat.factorial n) C)) c ∧ (z c).testBit i = false := by
      intro c
      simp only [InState]
      rw [mem_nonzero, mem_nonzero, getD_intersection, Bool.and_eq_true]
      constructor
      · rintro ⟨h1, h2, h3⟩
        rw [s3 c h1, ← hz c h1 i hL] at h3
        exact ⟨⟨h1, h2⟩, by simpa using h3⟩
      · rintro ⟨⟨h1, h2⟩, h3⟩
        rw [hz c h1 i hL] at h3
        exact ⟨h1, h2, by rw [s3 c h1, h3]; rfl⟩
    by_cases hN : nonzero (2 ^ n) (Nat.factorial n) (List.zipWith (List.zipWith Bool.and) C M) = []
    · rw [if_pos hN]
      apply ih C rows' r2 (hI.ignore fun c hc => ?_)
      by_contra hcb
      have := (hnew c).2 ⟨hc, by simpa using hcb⟩
      rw [hN] at this
      simp at this
    · rw [if_neg hN]
      rcases hI.check hnew hN (member := fun c => f.pairMember c.1 c.2) (fun c _ => hm c) with ⟨c, k1, k2⟩ | ⟨k1, k2⟩
      · exact ⟨c, by rw [k1]; rfl, k2⟩
      · rw [k1]
        exact ih _ rows' r2 k2

/-- **C137.** If python iterates in ascending order over sets of numbers below the adicity, then `_clan_minrep_prototype` gives the same as `clan_minrep`. -/
theorem C137_prototype (order : List Nat → List Nat) (f : Boolf) (hf : Reach f) (ho : Ascending order f.adicity) : f.clanMinrepPrototype order = f.clanMinrep order := by
  have hord : ∀ L, order (freeAtoms L f.adicity) = freeAtoms L f.adicity := fun L => ho _ (freeAtoms_asc L _) fun x hx => (mem_freeAtoms.1 hx).1
  by_cases hc : f.isConstant = true
  · unfold Boolf.clanMinrepPrototype Boolf.clanMinrep
    rw [if_pos hc, if_pos hc]
  · have hc : f.isConstant = false := by simpa using hc
    obtain ⟨P, g, t, b, layers, ratios, hP, hg, t1, t2, l1, l2, hl, hz, hI⟩ := clan_start hf.canon hc
    have hpos := Nat.two_pow_pos f.adicity
    have hinj : ∀ c d : Nat × Nat, c.1 < 2 ^ f.adicity ∧ c.2 < Nat.factorial f.adicity → d.1 < 2 ^ f.adicity ∧ d.2 < Nat.factorial f.adicity →
        Z (g c) f.adicity = Z (g d) f.adicity → g c = g d :=
      fun c d hcl hdl h => Z_inj (hg c).2.1 (hg d).2.1 ((hg c).2.2.2 hcl.2) ((hg d).2.2.2 hdl.2) h
    have hall : ∀ c : Nat × Nat, c ∈ nonzero (2 ^ f.adicity) (Nat.factorial f.adicity) (List.replicate (Nat.factorial f.adicity) (List.replicate (2 ^ f.adicity) true)) ↔
        c.1 < 2 ^ f.adicity ∧ c.2 < Nat.factorial f.adicity := by
      intro c
      rw [mem_nonzero]
      refine ⟨fun h => h.1, fun h => ⟨h, ?_⟩⟩
      rw [List.getD_eq_getElem?_getD, List.getD_eq_getElem?_getD, List.getElem?_replicate, if_pos h.2, Option.getD_some, List.getElem?_replicate, if_pos h.1]
      rfl
    have hI' : Inv (fun c : Nat × Nat => c.1 < 2 ^ f.adicity ∧ c.2 < Nat.factorial f.adicity) (fun c => Z (g c) f.adicity) g (2 ^ f.adicity - 1)
        (some (nonzero (2 ^ f.adicity) (Nat.factorial f.adicity) (List.replicate (Nat.factorial f.adicity) (List.replicate (2 ^ f.adicity) true)))) := by
      refine ⟨fun c => (hall c).trans (hI.least c), ?_⟩
      obtain ⟨c, d, h1, h2, h3⟩ := hI.two
      exact ⟨c, d, (hall c).2 h1, (hall d).2 h2, h3⟩
    obtain ⟨c, c1, c2⟩ := protoLoop_spec order (fun L _ => hord L) hl hP (fun c => (hg c).1) hz hinj (2 ^ f.adicity - 1) (by omega) _ [] (fun key l h => by simp [Dict.get?] at h) hI'
    have hprod := clanLoop_spec order (fun L _ => by rw [hord L]) hl hP (fun c => (hg c).1) hz hinj (2 ^ f.adicity - 1) (by omega) none [] (fun key l h => by simp [Dict.get?] at h) hI
    rcases hprod with ⟨_, L, _, h⟩ | ⟨d, d1, d2⟩
    · exact absurd (hord L) h
    · rw [show 2 ^ f.adicity - (2 ^ f.adicity - 1) = 1 by omega] at c1 d1
      unfold Boolf.clanMinrepPrototype Boolf.clanMinrep
      rw [if_neg (by simp [hc]), if_neg (by simp [hc]), t1]
      simp only [bind, Except.bind]
      rw [t2]
      simp only [l1, l2, Nat.one_shiftLeft]
      rw [c1, d1, hinj c d c2.1 d2.1 (by simpa using least_same c2 d2)]

/-- **C137.** The prototype gives the least member of the clan. -/
theorem C137_least (order : List Nat → List Nat) (f : Boolf) (hf : Reach f) (ho : Ascending order f.adicity) :
    ∃ r z, f.clanMinrepPrototype order = .ok (some r) ∧ Reach r ∧ SignedRenamed f.adicity f r ∧ r.zhe = .ok z ∧
      ∀ n g, Reach g → SignedRenamed n f g → ∃ z', g.zhe = .ok z' ∧ z ≤ z' ∧ (z' = z → g = r) := by
  rw [C137_prototype order f hf ho]
  exact C101_clan_minrep order f hf ho

/-- The implication "1011" has the representative "1110" (the negated conjunction), with both functions. -/
example : ∃ f r, newTT (.str "1011".toList) = .ok f ∧ newTT (.str "1110".toList) = .ok r ∧ Reach f ∧ Ascending id f.adicity ∧ f.clanMinrepPrototype id = .ok (some r) ∧
    f.clanMinrep id = .ok (some r) := by
  obtain ⟨_, e1, e2⟩ := newTT_explicit "1011".toList [true, false, true, true] [0, 1] 2 (by decide) (by decide) (by decide) (by intro n; simp; omega) (by decide) (by decide)
  obtain ⟨_, e3, e4⟩ := newTT_explicit "1110".toList [true, true, true, false] [0, 1] 2 (by decide) (by decide) (by decide) (by intro n; simp; omega) (by decide) (by decide)
  exact ⟨_, _, e1 (by decide), e3 (by decide), e2.reach, fun _ _ _ => rfl, by decide +kernel, by decide +kernel⟩

end Verif.BF
