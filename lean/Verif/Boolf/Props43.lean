import Verif.Boolf.Props42

/-!
# C98: the permutations that map one set of places onto another (`schoute_coset_gen`)
-/

namespace Verif.BF
open Verif.Py Verif.BV Verif.P Verif.W Verif.SP
open Verif.A hiding Mat

theorem placeLoop_spec (keys vals : List Nat) (i : Nat) (hl : i + vals.length ≤ keys.length) (hn : keys.Nodup) (perm : List Nat) (hk : ∀ x ∈ keys, x < perm.length) :
    ∃ r, placeLoop keys (vals.zipIdx i) perm = .ok r ∧ r.length = perm.length ∧
      (∀ (j x y : Nat), keys[i + j]? = some x → vals[j]? = some y → r[x]? = some y) ∧
      ∀ c, (∀ j < vals.length, keys[i + j]? ≠ some c) → r[c]? = perm[c]? := by
  induction vals generalizing i perm with
  | nil => exact ⟨perm, rfl, rfl, fun j x y _ h => by simp at h, fun c _ => rfl⟩
  | cons v vals ih =>
    simp only [List.length_cons] at hl
    have hi : i < keys.length := by omega
    obtain ⟨r, r1, r2, r3, r4⟩ := ih (i + 1) (by omega) (perm.set keys[i] v) (fun x hx => by rw [List.length_set]; exact hk x hx)
    have hlt : keys[i] < perm.length := hk _ (List.getElem_mem hi)
    refine ⟨r, ?_, by rw [r2, List.length_set], ?_, ?_⟩
    · rw [List.zipIdx_cons]
      unfold placeLoop
      rw [List.getElem?_eq_getElem hi]
      simp only
      rw [if_pos hlt]
      exact r1
    · intro j x y hx hy
      cases j with
      | zero =>
        rw [Nat.add_zero, List.getElem?_eq_getElem hi] at hx
        simp only [List.getElem?_cons_zero, Option.some.injEq] at hx hy
        subst hx hy
        rw [r4, List.getElem?_set, if_pos rfl, if_pos hlt]
        intro j _ h
        have := (List.getElem?_inj hi hn).1 ((List.getElem?_eq_getElem hi).trans h.symm)
        omega
      | succ j =>
        exact r3 j x y (by rw [← hx]; congr 1; omega) (by simpa using hy)
    · intro c hc
      rw [r4 c fun j hj => by
        have := hc (j + 1) (by simp only [List.length_cons]; omega)
        rwa [show i + (j + 1) = i + 1 + j by omega] at this]
      rw [List.getElem?_set, if_neg]
      intro h
      exact hc 0 (by simp) (by rw [Nat.add_zero, List.getElem?_eq_getElem hi, h])

theorem placeLoop_long (keys vals : List Nat) (i : Nat) (hl : keys.length < i + vals.length) (perm : List Nat) (hi : i ≤ keys.length) :
    placeLoop keys (vals.zipIdx i) perm = .error .indexError := by
  induction vals generalizing i perm with
  | nil => simp at hl; omega
  | cons v vals ih =>
    simp only [List.length_cons] at hl
    rw [List.zipIdx_cons]
    unfold placeLoop
    by_cases h : i < keys.length
    · rw [List.getElem?_eq_getElem h]
      simp only
      split
      · exact ih (i + 1) (by omega) _ (by omega)
      · rfl
    · rw [List.getElem?_eq_none (by omega)]

theorem rank_index {n : Nat} {s : List Nat} (hs : s.Perm (List.range n)) :
    fromFactoradic (leftInversionCount s) < Nat.factorial n ∧ (revColexPerms n)[fromFactoradic (leftInversionCount s)]? = some s := by
  have hl : s.length = n := by rw [hs.length_eq, List.length_range]
  have e : fromFactoradic (leftInversionCount s) = rankR (revComp s) := by
    rw [leftInversionCount_eq (fun x hx => by rw [hl]; exact List.mem_range.1 (hs.mem_iff.1 hx)), rankR_eq]
  rw [e]
  refine ⟨revColex_rank hs, ?_⟩
  obtain ⟨k, hk⟩ := List.mem_iff_getElem?.1 ((mem_revColexPerms n s).2 hs)
  have h := congrArg (fun l => l[k]?) (revColex_ranks n)
  have hkn : k < Nat.factorial n := by rw [← length_revColexPerms n]; exact getElem?_some_lt hk
  simp only [List.getElem?_map, hk, Option.map_some, List.getElem?_range hkn, Option.some.injEq] at h
  rw [h, hk]

/-- the places below `n` with digit 1, and those with digit 0 -/
theorem recto_verso {n K : Nat} (hK : K < 2 ^ n) :
    (intToExposet K ++ (List.range n).filter fun x => !(intToExposet K).contains x).Perm (List.range n) ∧
    ((List.range n).filter fun x => !(intToExposet K).contains x) = freeAtoms K n := by
  have h1 : ((List.range n).filter fun x => !(intToExposet K).contains x) = freeAtoms K n := by
    unfold freeAtoms
    apply List.filter_congr
    intro x hx
    rw [exposet_range hK]
    have hx := List.mem_range.1 hx
    cases h : K.testBit x <;> simp [h, hx]
  refine ⟨?_, h1⟩
  rw [h1, exposet_range hK]
  exact List.filter_append_perm _ _

theorem map_getD_range {s : List Nat} {n : Nat} (hl : s.length = n) : (List.range n).map (fun x => s.getD x 0) = s := by
  apply List.ext_getElem?
  intro i
  by_cases hi : i < n
  · rw [List.getElem?_map, List.getElem?_range hi, List.getElem?_eq_getElem (by omega)]
    simp [List.getD_eq_getElem?_getD, List.getElem?_eq_getElem (show i < s.length by omega)]
  · rw [List.getElem?_eq_none (by simp; omega), List.getElem?_eq_none (by omega)]

/-- the list that is made of two arrangements -/
theorem placed {n K V : Nat} (hK : K < 2 ^ n) (hV : V < 2 ^ n) (hw : intToWeight K = intToWeight V) {rp vp : List Nat}
    (hr : rp.Perm (intToExposet V)) (hv : vp.Perm (freeAtoms V n)) :
    ∃ s t, placeLoop (intToExposet K) rp.zipIdx (List.replicate n 0) = .ok s ∧ placeLoop (freeAtoms K n) vp.zipIdx s = .ok t ∧ t.Perm (List.range n) ∧
      (intToExposet K).map (fun x => t.getD x 0) = rp ∧ (freeAtoms K n).map (fun x => t.getD x 0) = vp ∧ ∀ x < n, K.testBit x = V.testBit (t.getD x 0) := by
  have hx : ∀ {K x : Nat}, K < 2 ^ n → (x ∈ intToExposet K ↔ x < n ∧ K.testBit x = true) := by
    intro K x hK
    rw [exposet_range hK, List.mem_filter, List.mem_range]
  have hnd : ∀ {K : Nat}, K < 2 ^ n → (intToExposet K).Nodup := fun hK => by rw [exposet_range hK]; exact List.nodup_range.filter _
  have hlr : rp.length = (intToExposet K).length := by rw [hr.length_eq, ← C19_weight, ← C19_weight, hw]
  have hfl : (freeAtoms K n).length = (freeAtoms V n).length := by have := weight_free hK; have := weight_free hV; omega
  have hlv : vp.length = (freeAtoms K n).length := by rw [hv.length_eq, hfl]
  have hfn : (freeAtoms K n).Nodup := (freeAtoms_asc K n).imp fun h => Nat.ne_of_lt h
  obtain ⟨s, s1, s2, s3, s4⟩ := placeLoop_spec (intToExposet K) rp 0 (by omega) (hnd hK) (List.replicate n 0) (fun x h => by rw [List.length_replicate]; exact ((hx hK).1 h).1)
  rw [List.length_replicate] at s2
  obtain ⟨t, t1, t2, t3, t4⟩ := placeLoop_spec (freeAtoms K n) vp 0 (by omega) hfn s (fun x h => by rw [s2]; exact (mem_freeAtoms.1 h).1)
  have e1 : (intToExposet K).map (fun x => t.getD x 0) = rp := by
    apply List.ext_getElem?
    intro i
    by_cases hi : i < (intToExposet K).length
    · have hiv : i < rp.length := by omega
      have h1 := s3 i _ _ (by rw [Nat.zero_add, List.getElem?_eq_getElem hi]) (List.getElem?_eq_getElem hiv)
      have h2 := t4 (intToExposet K)[i] (fun j hj h => by
        have h3 := (mem_freeAtoms.1 (List.mem_of_getElem? h)).2
        rw [((hx hK).1 (List.getElem_mem hi)).2] at h3
        cases h3)
      rw [List.getElem?_map, List.getElem?_eq_getElem hi, List.getElem?_eq_getElem hiv]
      simp only [Option.map_some]
      rw [List.getD_eq_getElem?_getD, h2, h1]
      rfl
    · rw [List.getElem?_eq_none (by simp; omega), List.getElem?_eq_none (by omega)]
  have e2 : (freeAtoms K n).map (fun x => t.getD x 0) = vp := by
    apply List.ext_getElem?
    intro i
    by_cases hi : i < (freeAtoms K n).length
    · have hiv : i < vp.length := by omega
      have h1 := t3 i _ _ (by rw [Nat.zero_add, List.getElem?_eq_getElem hi]) (List.getElem?_eq_getElem hiv)
      rw [List.getElem?_map, List.getElem?_eq_getElem hi, List.getElem?_eq_getElem hiv]
      simp only [Option.map_some]
      rw [List.getD_eq_getElem?_getD, h1]
      rfl
    · rw [List.getElem?_eq_none (by simp; omega), List.getElem?_eq_none (by omega)]
  refine ⟨s, t, s1, t1, ?_, e1, e2, ?_⟩
  · have h1 := (recto_verso hK).1
    rw [(recto_verso hK).2] at h1
    have h2 := (recto_verso hV).1
    rw [(recto_verso hV).2] at h2
    rw [← map_getD_range (s := t) (n := n) (by rw [t2, s2])]
    refine (h1.symm.map _).trans ?_
    rw [List.map_append, e1, e2]
    exact (hr.append hv).trans h2
  · intro x hxn
    cases hb : K.testBit x with
    | true =>
      have : t.getD x 0 ∈ rp := by rw [← e1]; exact List.mem_map.2 ⟨x, (hx hK).2 ⟨hxn, hb⟩, rfl⟩
      exact (((hx hV).1 (hr.mem_iff.1 this)).2).symm
    | false =>
      have : t.getD x 0 ∈ vp := by rw [← e2]; exact List.mem_map.2 ⟨x, mem_freeAtoms.2 ⟨hxn, hb⟩, rfl⟩
      exact ((mem_freeAtoms.1 (hv.mem_iff.1 this)).2).symm

theorem nodup_permutations {l : List Nat} (hl : l.Pairwise (· < ·)) : (permutations l).Nodup :=
  (permutations_sorted l hl).imp fun h => ne_of_lt h

theorem exposet_asc (K : Nat) : (intToExposet K).Pairwise (· < ·) := by
  obtain ⟨n, hn⟩ : ∃ n, K < 2 ^ n := ⟨K, Nat.lt_two_pow_self⟩
  rw [exposet_range hn]
  exact List.pairwise_lt_range.filter _

theorem schouteCosetGen_spec {n K V : Nat} (hK : K < 2 ^ n) (hV : V < 2 ^ n) (hw : intToWeight K = intToWeight V) :
    ∃ l, schouteCosetGen K V n = .ok l ∧ l.Nodup ∧ l.length = Nat.factorial (intToWeight K) * Nat.factorial (n - intToWeight K) ∧
      ∀ k, k ∈ l ↔ k < Nat.factorial n ∧ ∃ p, intToPerm k = .ok p ∧ ∀ x < n, K.testBit x = V.testBit (p.get x) := by
  classical
  have hpl : ∀ rv ∈ ((permutations (intToExposet V)).flatMap fun rp => (permutations (freeAtoms V n)).map fun vp => (rp, vp)),
      rv.1.Perm (intToExposet V) ∧ rv.2.Perm (freeAtoms V n) := by
    intro rv h
    obtain ⟨rp, h1, h2⟩ := List.mem_flatMap.1 h
    obtain ⟨vp, h3, rfl⟩ := List.mem_map.1 h2
    exact ⟨(mem_permutations _ _).1 h1, (mem_permutations _ _).1 h3⟩
  let T : List Nat × List Nat → List Nat := fun rv =>
    if h : rv.1.Perm (intToExposet V) ∧ rv.2.Perm (freeAtoms V n) then (placed hK hV hw h.1 h.2).choose_spec.choose else []
  have hT : ∀ rv (h : rv.1.Perm (intToExposet V) ∧ rv.2.Perm (freeAtoms V n)), ∃ s, placeLoop (intToExposet K) rv.1.zipIdx (List.replicate n 0) = .ok s ∧
      placeLoop (freeAtoms K n) rv.2.zipIdx s = .ok (T rv) ∧ (T rv).Perm (List.range n) ∧
      (intToExposet K).map (fun x => (T rv).getD x 0) = rv.1 ∧ (freeAtoms K n).map (fun x => (T rv).getD x 0) = rv.2 ∧ ∀ x < n, K.testBit x = V.testBit ((T rv).getD x 0) := by
    intro rv h
    have : T rv = (placed hK hV hw h.1 h.2).choose_spec.choose := dif_pos h
    rw [this]
    exact ⟨_, (placed hK hV hw h.1 h.2).choose_spec.choose_spec⟩
  refine ⟨((permutations (intToExposet V)).flatMap fun rp => (permutations (freeAtoms V n)).map fun vp => (rp, vp)).map
    fun rv => fromFactoradic (leftInversionCount (T rv)), ?_, ?_, ?_, ?_⟩
  · unfold schouteCosetGen
    rw [if_pos (by simpa [Nat.one_shiftLeft] using ⟨hK, hV⟩)]
    simp only [(recto_verso hK).2, (recto_verso hV).2]
    apply mapM_ok
    intro rv hrv
    obtain ⟨s, h1, h2, _⟩ := hT rv (hpl rv hrv)
    rw [h1]
    simp only [bind, Except.bind]
    rw [h2]
    rfl
  · rw [List.nodup_map_iff_inj_on]
    · intro a ha b hb hab
      obtain ⟨_, _, _, a3, a4, a5, _⟩ := hT a (hpl a ha)
      obtain ⟨_, _, _, b3, b4, b5, _⟩ := hT b (hpl b hb)
      have h1 := (rank_index a3).2
      have h2 := (rank_index b3).2
      rw [hab, h2] at h1
      have hTe : T b = T a := Option.some.inj h1
      ext1
      · rw [← a4, ← b4, hTe]
      · rw [← a5, ← b5, hTe]
    · rw [List.nodup_flatMap]
      refine ⟨fun rp _ => (nodup_permutations (freeAtoms_asc V n)).map fun a b h => (Prod.mk.inj h).2, ?_⟩
      refine (nodup_permutations (exposet_asc V)).imp ?_
      intro a b hab x hx hy
      obtain ⟨_, _, rfl⟩ := List.mem_map.1 hx
      obtain ⟨_, _, h⟩ := List.mem_map.1 hy
      exact hab (Prod.mk.inj h).1.symm
  · rw [List.length_map, List.length_flatMap]
    simp only [List.length_map, length_permutations]
    rw [List.map_const', List.sum_replicate, length_permutations, ← C19_weight, smul_eq_mul, hw]
    congr 2
    have := weight_free hV
    omega
  · intro k
    rw [List.mem_map]
    constructor
    · rintro ⟨rv, hrv, rfl⟩
      obtain ⟨s, _, _, h3, _, _, h6⟩ := hT rv (hpl rv hrv)
      obtain ⟨r1, r2⟩ := rank_index h3
      obtain ⟨_, p, _, _, _, _, p5, p', p6, p7⟩ := perm_at r2
      refine ⟨r1, p', p6, fun x hx => ?_⟩
      rw [h6 x hx, List.getD_eq_getElem?_getD, p5 x hx, p7]
      rfl
    · rintro ⟨hk, p', hp', hkv⟩
      have hkl : k < (revColexPerms n).length := by rw [length_revColexPerms]; exact hk
      obtain ⟨hs, p, _, p2, p3, p4, p5, p'', p6, p7⟩ := perm_at (List.getElem?_eq_getElem hkl)
      rw [hp'] at p6
      obtain rfl : p' = p'' := Except.ok.inj p6
      generalize hsd : (revColexPerms n)[k] = s at hs p5
      have hsl : s.length = n := by rw [hs.length_eq, List.length_range]
      have hg : ∀ x < n, s.getD x 0 = p'.get x := fun x hx => by rw [List.getD_eq_getElem?_getD, p5 x hx, p7]; rfl
      have hinj : Function.Injective p'.get := by rw [show p'.get = p.get from funext p7]; exact p2.wf.get_bijective.1
      have hmaps : ∀ x < n, p'.get x < n := fun x hx => by rw [p7]; exact p2.wf.maps_below n (Or.inl ⟨p3, p4⟩) x hx
      have hxm : ∀ {K x : Nat}, K < 2 ^ n → (x ∈ intToExposet K ↔ x < n ∧ K.testBit x = true) := by
        intro K x hK
        rw [exposet_range hK, List.mem_filter, List.mem_range]
      have hr : ((intToExposet K).map fun x => s.getD x 0).Perm (intToExposet V) := by
        apply List.Subperm.perm_of_length_le
        · apply List.subperm_of_subset
          · rw [List.nodup_map_iff_inj_on ((exposet_asc K).imp fun h => Nat.ne_of_lt h)]
            intro a ha b hb hab
            rw [hg a ((hxm hK).1 ha).1, hg b ((hxm hK).1 hb).1] at hab
            exact hinj hab
          · intro y hy
            obtain ⟨x, hx, rfl⟩ := List.mem_map.1 hy
            obtain ⟨x1, x2⟩ := (hxm hK).1 hx
            rw [hg x x1]
            exact (hxm hV).2 ⟨hmaps x x1, by rw [← hkv x x1, x2]⟩
        · rw [List.length_map, ← C19_weight, ← C19_weight, hw]
      have hv : ((freeAtoms K n).map fun x => s.getD x 0).Perm (freeAtoms V n) := by
        apply List.Subperm.perm_of_length_le
        · apply List.subperm_of_subset
          · rw [List.nodup_map_iff_inj_on ((freeAtoms_asc K n).imp fun h => Nat.ne_of_lt h)]
            intro a ha b hb hab
            rw [hg a (mem_freeAtoms.1 ha).1, hg b (mem_freeAtoms.1 hb).1] at hab
            exact hinj hab
          · intro y hy
            obtain ⟨x, hx, rfl⟩ := List.mem_map.1 hy
            obtain ⟨x1, x2⟩ := mem_freeAtoms.1 hx
            rw [hg x x1]
            exact mem_freeAtoms.2 ⟨hmaps x x1, by rw [← hkv x x1, x2]⟩
        · rw [List.length_map]
          have := weight_free hK
          have := weight_free hV
          omega
      refine ⟨((intToExposet K).map fun x => s.getD x 0, (freeAtoms K n).map fun x => s.getD x 0),
        List.mem_flatMap.2 ⟨_, (mem_permutations _ _).2 hr, List.mem_map.2 ⟨_, (mem_permutations _ _).2 hv, rfl⟩⟩, ?_⟩
      obtain ⟨_, _, _, t3, t4, t5, _⟩ := hT ((intToExposet K).map fun x => s.getD x 0, (freeAtoms K n).map fun x => s.getD x 0) ⟨hr, hv⟩
      have hTe : T ((intToExposet K).map fun x => s.getD x 0, (freeAtoms K n).map fun x => s.getD x 0) = s := by
        generalize T _ = t at *
        have htl : t.length = n := by rw [t3.length_eq, List.length_range]
        rw [← map_getD_range htl, ← map_getD_range hsl]
        apply List.map_congr_left
        intro x hx
        have hx := List.mem_range.1 hx
        cases hb : K.testBit x with
        | true => exact List.map_inj_left.1 t4 x ((hxm hK).2 ⟨hx, hb⟩)
        | false => exact List.map_inj_left.1 t5 x (mem_freeAtoms.2 ⟨hx, hb⟩)
      rw [hTe]
      have h1 := (rank_index hs).2
      have hnd : (revColexPerms n).Nodup := (C93_rev_colex_perms n).2.1
      have := (List.getElem?_inj (j := fromFactoradic (leftInversionCount s)) hkl hnd).1 (by rw [List.getElem?_eq_getElem hkl, hsd, h1])
      exact this.symm

/-- **C98.** For numbers with equally many binary digits 1, `schoute_coset_gen(key, val, n)` generates, each once, the indices of those permutations of
`range(n)` that map the places of the digits 1 of the first number onto those of the second; there are `w! * (n - w)!` of them. -/
theorem C98_coset (key val n : Nat) (hk : key < 2 ^ n) (hv : val < 2 ^ n) (hw : ones n key = ones n val) :
    ∃ l, schouteCosetGen key val n = .ok l ∧ l.Nodup ∧ l.length = Nat.factorial (ones n key) * Nat.factorial (n - ones n key) ∧
      ∀ k, k ∈ l ↔ k < Nat.factorial n ∧ ∃ p, intToPerm k = .ok p ∧ ∀ x < n, key.testBit x = val.testBit (p.get x) := by
  have := schouteCosetGen_spec hk hv (by rw [weight_ones hk, weight_ones hv, hw])
  rwa [weight_ones hk] at this

theorem mapM_error {α β : Type} {g : α → Except Err β} {l : List α} {e : Err} (hne : l ≠ []) (h : ∀ a ∈ l, g a = .error e) : l.mapM g = .error e := by
  cases l with
  | nil => exact absurd rfl hne
  | cons a l => rw [List.mapM_cons, h a (by simp)]; rfl

/-- **C98.** `schoute_coset_gen` raises `AssertionError`, if a number has digits beyond the arity, and `IndexError`, if the numbers of digits 1 differ. -/
theorem C98_errors (key val n : Nat) :
    ((2 ^ n ≤ key ∨ 2 ^ n ≤ val) → schouteCosetGen key val n = .error .assertion) ∧
    (key < 2 ^ n → val < 2 ^ n → ones n key ≠ ones n val → schouteCosetGen key val n = .error .indexError) := by
  constructor
  · intro h
    unfold schouteCosetGen
    rw [if_neg (by rw [Nat.one_shiftLeft]; omega)]
  · intro hk hv hne
    unfold schouteCosetGen
    rw [if_pos (by simpa [Nat.one_shiftLeft] using ⟨hk, hv⟩)]
    simp only [(recto_verso hk).2, (recto_verso hv).2]
    apply mapM_error
    · intro h
      have h1 : intToExposet val ∈ permutations (intToExposet val) := (mem_permutations _ _).2 (List.Perm.refl _)
      have h2 : freeAtoms val n ∈ permutations (freeAtoms val n) := (mem_permutations _ _).2 (List.Perm.refl _)
      have h3 : (intToExposet val, freeAtoms val n) ∈ ([] : List (List Nat × List Nat)) := by
        rw [← h]
        exact List.mem_flatMap.2 ⟨_, h1, List.mem_map.2 ⟨_, h2, rfl⟩⟩
      cases h3
    · intro rv hrv
      obtain ⟨rp, h1, h2⟩ := List.mem_flatMap.1 hrv
      obtain ⟨vp, h3, rfl⟩ := List.mem_map.1 h2
      have l1 := ((mem_permutations _ _).1 h1).length_eq
      have l2 := ((mem_permutations _ _).1 h3).length_eq
      rw [← weight_ones hk, ← weight_ones hv] at hne
      have w1 := weight_free hk
      have w2 := weight_free hv
      have e1 := C19_weight key
      have e2 := C19_weight val
      dsimp only
      by_cases hlt : (intToExposet key).length < rp.length
      · rw [placeLoop_long _ _ 0 (by omega) _ (by omega)]
        rfl
      · have hx : ∀ x ∈ intToExposet key, x < n := fun x hx => by
          rw [exposet_range hk] at hx
          exact List.mem_range.1 (List.mem_filter.1 hx).1
        obtain ⟨s, s1, _⟩ := placeLoop_spec (intToExposet key) rp 0 (by omega) ((exposet_asc key).imp fun h => Nat.ne_of_lt h) (List.replicate n 0)
          (fun x h => by rw [List.length_replicate]; exact hx x h)
        rw [s1]
        simp only [bind, Except.bind]
        rw [placeLoop_long _ _ 0 (by omega) _ (by omega)]

/-- Of the 6 permutations of 3 places, those with the indices 1 and 4 map the place 0 onto the place 1. -/
example : ones 3 1 = ones 3 2 ∧ ones 3 1 ≠ ones 3 3 ∧ schouteCosetGen 1 3 3 = .error .indexError ∧ ∃ l, schouteCosetGen 1 2 3 = .ok l ∧ l.length = 2 ∧ 1 ∈ l ∧ 4 ∈ l := by
  exact ⟨by decide, by decide, by decide +kernel, _, rfl, by decide, by decide, by decide⟩

end Verif.BF
