import Verif.Boolf.Props54

/-!
# C105: clans divided into factions and families
-/

namespace Verif.BF
open Verif.Py Verif.BV Verif.P Verif.W Verif.SP
open Verif.A hiding Mat

/-! ## the loop that collects the classes -/

/-- The tuples are sorted classes of members of `S`, and different tuples are disjoint. -/
structure Tuples (S : List Boolf) (rel : Boolf → Boolf → Prop) (T : List (List Boolf)) : Prop where
  cls : ∀ t ∈ T, ∃ g ∈ S, ∀ h, h ∈ t ↔ h ∈ S ∧ rel g h
  nodup : ∀ t ∈ T, t.Nodup
  sort : ∀ t ∈ T, t.Pairwise fun a b => b.lt a = .ok false
  disj : T.Pairwise fun t t' => ∀ x ∈ t, x ∉ t'

/-- The relation is an equivalence of the members of `S`. -/
structure EquivOn (S : List Boolf) (rel : Boolf → Boolf → Prop) : Prop where
  refl : ∀ g ∈ S, rel g g
  symm : ∀ g ∈ S, ∀ h ∈ S, rel g h → rel h g
  trans : ∀ g ∈ S, ∀ h ∈ S, ∀ k ∈ S, rel g h → rel h k → rel g k

theorem Tuples.reach {S : List Boolf} {rel : Boolf → Boolf → Prop} {T : List (List Boolf)} (h : Tuples S rel T) (hr : ∀ g ∈ S, Reach g) :
    ∀ t ∈ T, ∀ g ∈ t, Reach g := by
  intro t ht g hg
  obtain ⟨_, _, h2⟩ := h.cls t ht
  exact hr g ((h2 g).1 hg).1

theorem flatten_nodup {T : List (List Boolf)} (h1 : ∀ t ∈ T, t.Nodup) (h2 : T.Pairwise fun t t' => ∀ x ∈ t, x ∉ t') : T.flatten.Nodup := by
  rw [List.nodup_flatten]
  exact ⟨h1, h2.imp fun h x hx hx' => h x hx hx'⟩

theorem tuplesLoop_spec {S : List Boolf} {rel : Boolf → Boolf → Prop} {ec : Boolf → Except Err EcPart} (hr : ∀ g ∈ S, Reach g) (heq : EquivOn S rel)
    (hec : ∀ g ∈ S, ∃ E, ec g = .ok E ∧ (E.part.blockLabels.map Prod.snd).Nodup ∧ ∀ h, h ∈ E.part.blockLabels.map Prod.snd ↔ h ∈ S ∧ rel g h)
    (L : List Boolf) (T : List (List Boolf)) (sum : Nat) (hL : ∀ g ∈ L, g ∈ S) (hT : Tuples S rel T) (hsum : sum = T.flatten.length) (hcov : ∀ g ∈ S, g ∈ L ∨ g ∈ T.flatten) :
    ∃ T', tuplesLoop ec S.length L T sum = .ok T' ∧ Tuples S rel T' ∧ ∀ g ∈ S, g ∈ T'.flatten := by
  induction L generalizing T sum with
  | nil => exact ⟨T, rfl, hT, fun g hg => (hcov g hg).resolve_left (by simp)⟩
  | cons g L ih =>
    have hgS := hL g List.mem_cons_self
    obtain ⟨E, e1, e2, e3⟩ := hec g hgS
    obtain ⟨t, t1, t2, t3⟩ := sortBoolfs_spec (E.part.blockLabels.map Prod.snd) fun y hy => hr y ((e3 y).1 hy).1
    have htm : ∀ h, h ∈ t ↔ h ∈ S ∧ rel g h := fun h => by rw [t2.mem_iff, e3]
    have htn : t.Nodup := t2.nodup_iff.2 e2
    have htr : ∀ y ∈ t, Reach y := fun y hy => hr y ((htm y).1 hy).1
    have hgt : g ∈ t := (htm g).2 ⟨hgS, heq.refl g hgS⟩
    unfold tuplesLoop
    rw [e1]
    simp only [bind, Except.bind, pure, Except.pure]
    rw [t1]
    simp only
    have hany : T.any (tupleEq t) = true ↔ t ∈ T := by
      rw [List.any_eq_true]
      constructor
      · rintro ⟨t', h1, h2⟩
        rw [tupleEq_iff t t' htr (hT.reach hr t' h1)] at h2
        rwa [h2]
      · intro h
        exact ⟨t, h, (tupleEq_iff t t htr htr).2 rfl⟩
    by_cases hin : t ∈ T
    · rw [if_pos (hany.2 hin)]
      refine ih T sum (fun h hh => hL h (List.mem_cons_of_mem _ hh)) hT hsum fun h hh => ?_
      rcases hcov h hh with hm | hm
      · rcases List.mem_cons.1 hm with rfl | hm
        · exact .inr (List.mem_flatten.2 ⟨t, hin, hgt⟩)
        · exact .inl hm
      · exact .inr hm
    · rw [if_neg (fun hc => hin (hany.1 hc))]
      have hnew : Tuples S rel (T ++ [t]) := by
        constructor
        · intro t' ht'
          rcases List.mem_append.1 ht' with h | h
          · exact hT.cls t' h
          · obtain rfl := List.mem_singleton.1 h
            exact ⟨g, hgS, htm⟩
        · intro t' ht'
          rcases List.mem_append.1 ht' with h | h
          · exact hT.nodup t' h
          · obtain rfl := List.mem_singleton.1 h
            exact htn
        · intro t' ht'
          rcases List.mem_append.1 ht' with h | h
          · exact hT.sort t' h
          · obtain rfl := List.mem_singleton.1 h
            exact t3
        · rw [List.pairwise_append]
          refine ⟨hT.disj, by simp, fun t' ht' t'' ht'' x hx hx' => ?_⟩
          obtain rfl := List.mem_singleton.1 ht''
          obtain ⟨g', hg', hm'⟩ := hT.cls t' ht'
          obtain ⟨hxS, r1⟩ := (hm' x).1 hx
          obtain ⟨_, r2⟩ := (htm x).1 hx'
          apply hin
          rw [sorted_boolfs_unique htr htn (hT.nodup t' ht') (fun y => ?_) t3 (hT.sort t' ht')]
          · exact ht'
          · rw [htm, hm']
            constructor
            · rintro ⟨hy, h⟩
              exact ⟨hy, heq.trans g' hg' x hxS y hy r1 (heq.trans x hxS g hgS y hy (heq.symm g hgS x hxS r2) h)⟩
            · rintro ⟨hy, h⟩
              exact ⟨hy, heq.trans g hgS x hxS y hy r2 (heq.trans x hxS g' hg' y hy (heq.symm g' hg' x hxS r1) h)⟩
      have hlen : (T ++ [t]).flatten.length = sum + t.length := by rw [List.flatten_append, List.length_append, hsum]; simp
      by_cases hfull : sum + t.length = S.length
      · rw [if_pos hfull]
        refine ⟨_, rfl, hnew, fun h hh => ?_⟩
        have hnd := flatten_nodup hnew.nodup hnew.disj
        have hsub : (T ++ [t]).flatten ⊆ S := by
          intro x hx
          obtain ⟨t', ht', hxt⟩ := List.mem_flatten.1 hx
          obtain ⟨_, _, hm'⟩ := hnew.cls t' ht'
          exact ((hm' x).1 hxt).1
        have hp := (List.subperm_of_subset hnd hsub).perm_of_length_le (by rw [hlen, hfull])
        exact hp.mem_iff.2 hh
      · rw [if_neg hfull]
        refine ih (T ++ [t]) (sum + t.length) (fun h hh => hL h (List.mem_cons_of_mem _ hh)) hnew hlen.symm fun h hh => ?_
        rcases hcov h hh with hm | hm
        · rcases List.mem_cons.1 hm with rfl | hm
          · exact .inr (List.mem_flatten.2 ⟨t, by simp, hgt⟩)
          · exact .inl hm
        · exact .inr (by rw [List.flatten_append]; exact List.mem_append_left _ hm)

/-! ## the dictionaries -/

/-- the Zhegalkin index, for functions that have one -/
noncomputable def zhe' (g : Boolf) : Nat := match g.zhe with
  | .ok z => z
  | .error _ => 0

theorem zhe'_spec {g : Boolf} (hg : Reach g) : g.zhe = .ok (zhe' g) := by
  obtain ⟨z, hz⟩ := zhe_exists hg
  unfold zhe'
  rw [hz]

theorem zhe'_inj {g h : Boolf} (hg : Reach g) (hh : Reach h) (he : zhe' g = zhe' h) : g = h :=
  zhe_inj hg hh (zhe'_spec hg) (by rw [he]; exact zhe'_spec hh)

/-- the entry of a class in the dictionary of sets -/
noncomputable def classEntry (t : List Boolf) : Nat × List Nat := ((sorted (t.map zhe')).headD 0, t.map zhe')

theorem mapM_zhe (t : List Boolf) (ht : ∀ g ∈ t, Reach g) : t.mapM Boolf.zhe = .ok (t.map zhe') := by
  apply mapM_ok
  intro g hg
  exact zhe'_spec (ht g hg)

theorem map_zhe'_nodup {t : List Boolf} (ht : ∀ g ∈ t, Reach g) (hn : t.Nodup) : (t.map zhe').Nodup :=
  List.Nodup.map_on (fun x hx y hy h => zhe'_inj (ht x hx) (ht y hy) h) hn

theorem pyMinNat_head {l : List Nat} (h : l ≠ []) : pyMinNat l = .ok ((sorted l).headD 0) := by
  have hs : sorted l ≠ [] := fun hc => h (List.Perm.nil_eq (hc ▸ sorted_perm l)).symm
  cases l with
  | nil => exact absurd rfl h
  | cons x xs =>
    show Except.ok (xs.foldl min x) = _
    congr 1
    have hmem : ∀ (xs : List Nat) (x : Nat), xs.foldl min x ∈ x :: xs ∧ ∀ y ∈ x :: xs, xs.foldl min x ≤ y := by
      intro xs
      induction xs with
      | nil => intro x; simp
      | cons y ys ih =>
        intro x
        obtain ⟨h1, h2⟩ := ih (min x y)
        refine ⟨?_, fun z hz => ?_⟩
        · rw [List.foldl_cons]
          rcases List.mem_cons.1 h1 with h | h
          · rw [h]
            rcases min_choice x y with hc | hc <;> rw [hc] <;> simp
          · exact List.mem_cons_of_mem _ (List.mem_cons_of_mem _ h)
        · rw [List.foldl_cons]
          have := h2 (min x y) List.mem_cons_self
          rcases List.mem_cons.1 hz with rfl | hz
          · exact this.trans (min_le_left _ _)
          · rcases List.mem_cons.1 hz with rfl | hz
            · exact this.trans (min_le_right _ _)
            · exact h2 z (List.mem_cons_of_mem _ hz)
    obtain ⟨h1, h2⟩ := hmem xs x
    cases hl : sorted (x :: xs) with
    | nil => exact absurd hl hs
    | cons a l =>
      have ha : a ∈ x :: xs := mem_sorted.1 (by rw [hl]; simp)
      have hle := sorted_pairwise (x :: xs)
      have hm := mem_sorted.2 h1
      rw [hl] at hle hm
      apply le_antisymm (h2 a ha)
      rcases List.mem_cons.1 hm with h | h
      · rw [h]
      · exact (List.pairwise_cons.1 hle).1 _ h

theorem classEntry_mem {t : List Boolf} (h : t ≠ []) : (classEntry t).1 ∈ (classEntry t).2 := by
  unfold classEntry
  have hne : sorted (t.map zhe') ≠ [] := fun hc => h (List.map_eq_nil_iff.1 (List.Perm.nil_eq (hc ▸ sorted_perm _)).symm)
  cases hl : sorted (t.map zhe') with
  | nil => exact absurd hl hne
  | cons a l => exact mem_sorted.1 (by rw [hl]; simp)

theorem minToSet_spec (T : List (List Boolf)) (d : Dict Nat (List Nat)) (hr : ∀ t ∈ T, ∀ g ∈ t, Reach g) (hn : ∀ t ∈ T, t.Nodup) (h0 : ∀ t ∈ T, t ≠ [])
    (hk : (d.keys ++ T.map fun t => (classEntry t).1).Nodup) : minToSet T d = .ok (d ++ T.map classEntry) := by
  induction T generalizing d with
  | nil => simp [minToSet]
  | cons t T ih =>
    unfold minToSet
    rw [mapM_zhe t (hr t List.mem_cons_self)]
    simp only [bind, Except.bind]
    rw [List.Nodup.dedup (map_zhe'_nodup (hr t List.mem_cons_self) (hn t List.mem_cons_self)), pyMinNat_head (by simpa using h0 t List.mem_cons_self)]
    simp only
    rw [Dict.set_of_not_mem]
    · rw [ih]
      · simp [classEntry]
      · exact fun t' ht' => hr t' (List.mem_cons_of_mem _ ht')
      · exact fun t' ht' => hn t' (List.mem_cons_of_mem _ ht')
      · exact fun t' ht' => h0 t' (List.mem_cons_of_mem _ ht')
      · simpa [Dict.keys, classEntry] using hk
    · intro hc
      exact List.disjoint_of_nodup_append hk hc (by simp [classEntry])

theorem sortedSets_spec (sets : Dict Nat (List Nat)) (K : List Nat) (d : Dict Nat (List Nat)) (hK : ∀ k ∈ K, k ∈ sets.keys) (hk : (d.keys ++ K).Nodup) :
    sortedSets sets K d = .ok (d ++ K.map fun k => (k, sorted ((sets.get? k).getD []))) := by
  induction K generalizing d with
  | nil => simp [sortedSets]
  | cons k K ih =>
    obtain ⟨l, hl⟩ := Dict.mem_keys_iff.1 (hK k List.mem_cons_self)
    unfold sortedSets dictGet
    rw [hl]
    simp only [bind, Except.bind]
    rw [Dict.set_of_not_mem, ih]
    · simp [hl]
    · exact fun k' hk' => hK k' (List.mem_cons_of_mem _ hk')
    · simpa [Dict.keys] using hk
    · intro hc
      exact List.disjoint_of_nodup_append hk hc List.mem_cons_self

theorem crossLoop_spec (p q : Dict Nat (List Nat)) (K : List (Nat × Nat)) (d : Dict (Nat × Nat) (List Nat)) (hK : ∀ k ∈ K, k.1 ∈ p.keys ∧ k.2 ∈ q.keys)
    (hk : (d.keys ++ K).Nodup) :
    crossLoop p q K d = .ok (d ++ K.map fun k => (k, sorted (((p.get? k.1).getD []).filter fun z => ((q.get? k.2).getD []).contains z))) := by
  induction K generalizing d with
  | nil => simp [crossLoop]
  | cons k K ih =>
    obtain ⟨a, b⟩ := k
    obtain ⟨l, hl⟩ := Dict.mem_keys_iff.1 (hK (a, b) List.mem_cons_self).1
    obtain ⟨l', hl'⟩ := Dict.mem_keys_iff.1 (hK (a, b) List.mem_cons_self).2
    unfold crossLoop dictGet
    simp only at hl hl'
    rw [hl, hl']
    simp only [bind, Except.bind]
    rw [Dict.set_of_not_mem, ih]
    · simp [hl, hl']
    · exact fun k' hk' => hK k' (List.mem_cons_of_mem _ hk')
    · simpa [Dict.keys] using hk
    · intro hc
      exact List.disjoint_of_nodup_append hk hc List.mem_cons_self

end Verif.BF
