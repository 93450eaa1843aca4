import Verif.Boolf.Props61

/-!
# C116: the order of the splinters in `ec_clan_matrix`
-/

namespace Verif.BF
open Verif.Py Verif.BV Verif.P Verif.W Verif.SP
open Verif.A hiding Mat

/-! ## sorting a splinter by symmetry -/

theorem choose_range {α : Type} (L : List α) : (List.range L.length).filterMap (L[·]?) = L := by
  induction L with
  | nil => rfl
  | cons x L ih =>
    rw [List.length_cons, List.range_succ_eq_map, List.filterMap_cons_some (f := fun i => (x :: L)[i]?) (b := x) rfl, List.filterMap_map]
    conv_rhs => rw [← ih]
    rfl

theorem choose_perm {α : Type} {σ : List Nat} {L : List α} (h : σ.Perm (List.range L.length)) : (σ.filterMap (L[·]?)).Perm L := by
  have := h.filterMap (L[·]?)
  rwa [choose_range] at this

theorem choose_map {α β : Type} (f : α → β) (σ : List Nat) (L : List α) : (σ.filterMap (L[·]?)).map f = σ.filterMap ((L.map f)[·]?) := by
  rw [List.map_filterMap]
  congr 1
  funext i
  simp

theorem cons_le {a c : Nat} {l m : List Nat} (h : a :: l ≤ c :: m) : a < c ∨ a = c ∧ l ≤ m := by
  have h := not_lt.2 h
  rcases lt_trichotomy a c with hac | hac | hac
  · exact .inl hac
  · subst hac
    exact .inr ⟨rfl, not_lt.1 fun hlt => h (List.Lex.cons hlt)⟩
  · exact absurd (List.Lex.rel hac) h

theorem pair_le {a b c d : Nat} (h : [a, b] ≤ [c, d]) : a < c ∨ a = c ∧ b ≤ d := by
  rcases cons_le h with h | ⟨h, h'⟩
  · exact .inl h
  · refine .inr ⟨h, ?_⟩
    rcases cons_le h' with h | ⟨h, _⟩
    · exact le_of_lt h
    · exact le_of_eq h

theorem sort_pair (s : Nat → Nat) {L : List Nat} (hne : L ≠ []) :
    ∃ M : List Nat, sortTogetherAll [L.map s, L] = .ok [M.map s, M] ∧ M.Perm L ∧ M.Pairwise fun x y => s x < s y ∨ s x = s y ∧ x ≤ y := by
  obtain ⟨σ, s1, s2, s3⟩ := C110_sort_together [L.map s, L] L.length (by simp) (by simp) (by cases L with | nil => exact absurd rfl hne | cons => simp)
  refine ⟨σ.filterMap (L[·]?), ?_, choose_perm s1, ?_⟩
  · rw [s2, choose_map]
    rfl
  · rw [List.pairwise_filterMap]
    refine s3.imp fun {i j} hij x hx y hy => ?_
    apply pair_le
    simpa [hx, hy] using hij

/-! ## the groups of splinters -/

/-- the splinters of the factions in `A` (as sorted in `M`), by their symmetries -/
structure Groups (s : Nat → Nat) (M : Nat → List Nat) (A : List Nat) (D : Dict (List Nat) (Dict Nat (List Nat))) : Prop where
  keys : D.keys.Nodup
  nodup : ∀ e ∈ D, e.2.keys.Nodup
  nonempty : ∀ e ∈ D, e.2 ≠ []
  mem : ∀ K a L, (∃ G, (K, G) ∈ D ∧ (a, L) ∈ G) ↔ a ∈ A ∧ K = (M a).map s ∧ L = M a

theorem Groups.add {s : Nat → Nat} {M : Nat → List Nat} {A : List Nat} {D : Dict (List Nat) (Dict Nat (List Nat))} (h : Groups s M A D) (a : Nat) :
    Groups s M (A ++ [a]) (D.set ((M a).map s) (((D.get? ((M a).map s)).getD []).set a (M a))) := by
  obtain ⟨K0, hK0⟩ : ∃ K0, K0 = (M a).map s := ⟨_, rfl⟩
  obtain ⟨G0, hG0⟩ : ∃ G0, G0 = (D.get? K0).getD [] := ⟨_, rfl⟩
  have hG0n : G0.keys.Nodup := by
    rw [hG0]
    cases hg : D.get? K0 with
    | none => exact List.nodup_nil
    | some G => exact h.nodup _ (Dict.get?_mem hg)
  have hG0m : ∀ x L, (x, L) ∈ G0 ↔ x ∈ A ∧ K0 = (M x).map s ∧ L = M x := by
    intro x L
    rw [← h.mem, hG0]
    cases hg : D.get? K0 with
    | none =>
      constructor
      · intro h; cases h
      · rintro ⟨G, hG, _⟩
        rw [(Dict.get?_iff_mem h.keys).2 hG] at hg
        cases hg
    | some G =>
      constructor
      · exact fun hx => ⟨G, Dict.get?_mem hg, hx⟩
      · rintro ⟨G', hG', hx⟩
        rw [(Dict.get?_iff_mem h.keys).2 hG'] at hg
        cases hg
        exact hx
  rw [← hK0, ← hG0]
  have hk := Dict.nodup_keys_set h.keys K0 (G0.set a (M a))
  have hgn := Dict.nodup_keys_set hG0n a (M a)
  have hmem : ∀ K G, (K, G) ∈ D.set K0 (G0.set a (M a)) ↔ if K0 = K then G = G0.set a (M a) else (K, G) ∈ D := by
    intro K G
    rw [← Dict.get?_iff_mem hk, Dict.get?_set]
    split
    · rw [Option.some.injEq, eq_comm]
    · rw [Dict.get?_iff_mem h.keys]
  have hset : ∀ x L, (x, L) ∈ G0.set a (M a) ↔ if a = x then L = M a else (x, L) ∈ G0 := by
    intro x L
    rw [← Dict.get?_iff_mem hgn, Dict.get?_set]
    split
    · rw [Option.some.injEq, eq_comm]
    · rw [Dict.get?_iff_mem hG0n]
  refine ⟨hk, ?_, ?_, ?_⟩
  · rintro ⟨K, G⟩ he
    have := (hmem K G).1 he
    split at this
    · subst this; exact hgn
    · exact h.nodup _ this
  · rintro ⟨K, G⟩ he
    have := (hmem K G).1 he
    split at this
    · subst this
      intro hc
      have hm := (hset a (M a)).2 (by rw [if_pos rfl])
      simp only at hc
      rw [hc] at hm
      cases hm
    · exact h.nonempty _ this
  · intro K x L
    simp only [hmem]
    by_cases hKK : K0 = K
    · subst hKK
      simp only [if_true, exists_eq_left, hset, List.mem_append, List.mem_singleton]
      by_cases hax : a = x
      · subst hax
        simp only [if_true, or_true, true_and, hK0]
      · simp only [if_neg hax, hG0m]
        have : (x ∈ A ∨ x = a) ↔ x ∈ A := ⟨fun h => h.elim id fun h => absurd h.symm hax, .inl⟩
        rw [this]
    · simp only [if_neg hKK, h.mem, List.mem_append, List.mem_singleton]
      constructor
      · rintro ⟨h1, h2⟩; exact ⟨.inl h1, h2⟩
      · rintro ⟨h1 | rfl, h2, h3⟩
        · exact ⟨h1, h2, h3⟩
        · exact absurd (hK0.trans h2.symm) hKK

theorem symsetLoop_spec {X : Dict (Nat × Nat) (List Nat)} {needs : List Nat} {b : Nat} {s : Nat → Nat} {M : Nat → List Nat} (reps : List Nat)
    (h : ∀ a ∈ reps, a ∈ needs → ∃ L, X.get? (a, b) = some L ∧ L.mapM symIntval = .ok (L.map s) ∧ sortTogetherAll [L.map s, L] = .ok [(M a).map s, M a])
    {A : List Nat} {D : Dict (List Nat) (Dict Nat (List Nat))} (hD : Groups s M A D) :
    ∃ D', symsetLoop X needs b reps D = .ok D' ∧ Groups s M (A ++ reps.filter fun a => decide (a ∈ needs)) D' := by
  induction reps generalizing A D with
  | nil => exact ⟨D, rfl, by simpa using hD⟩
  | cons a reps ih =>
    rw [symsetLoop]
    by_cases ha : a ∈ needs
    · obtain ⟨L, l1, l2, l3⟩ := h a (by simp) ha
      obtain ⟨D', d1, d2⟩ := ih (fun a' h1 h2 => h a' (by simp [h1]) h2) (hD.add a)
      refine ⟨D', ?_, ?_⟩
      · rw [if_pos ha]
        simp only [bind, Except.bind, dictGet, l1, l2, l3, unpackTwo]
        exact d1
      · rw [List.filter_cons, if_pos (by simpa using ha)]
        simpa using d2
    · rw [if_neg ha, List.filter_cons, if_neg (by simpa using ha)]
      exact ih (fun a' h1 h2 => h a' (by simp [h1]) h2) hD

/-! ## aligning the splinters of a group -/

theorem setRows_get (b : Nat) (row : Nat → List Nat) (reps : List Nat) (d : Dict (Nat × Nat) (List Nat)) (k : Nat × Nat) :
    (setRows b (reps.map fun a => (a, row a)) d).get? k = if k.2 = b ∧ k.1 ∈ reps then some (row k.1) else d.get? k := by
  induction reps generalizing d with
  | nil => simp [setRows]
  | cons a reps ih =>
    obtain ⟨x, y⟩ := k
    rw [List.map_cons, setRows, ih, Dict.get?_set]
    simp only [Prod.mk.injEq, List.mem_cons]
    by_cases hy : y = b
    · subst hy
      by_cases hx : x ∈ reps
      · simp [hx]
      · by_cases hxa : a = x
        · subst hxa; simp
        · have hax : ¬ x = a := fun h => hxa h.symm
          simp [hx, hxa, hax]
    · have hby : ¬ b = y := fun h => hy h.symm
      simp [hy, hby]

theorem setRows_keys (b : Nat) (row : Nat → List Nat) (reps : List Nat) (d : Dict (Nat × Nat) (List Nat)) (h : ∀ a ∈ reps, (a, b) ∈ d.keys) :
    (setRows b (reps.map fun a => (a, row a)) d).keys = d.keys := by
  induction reps generalizing d with
  | nil => rfl
  | cons a reps ih =>
    have hk : Dict.keys (d.set (a, b) (row a)) = d.keys := Dict.keys_set_of_mem _ (h a (by simp))
    rw [List.map_cons, setRows, ih _ fun a' ha' => by rw [hk]; exact h a' (by simp [ha']), hk]

theorem zip_map_self {α β : Type} (f : α → β) (l : List α) : l.zip (l.map f) = l.map fun a => (a, f a) := by
  induction l with
  | nil => rfl
  | cons a l ih => rw [List.map_cons, List.zip_cons_cons, ih, List.map_cons]

theorem align_group {M : Nat → List Nat} {K : List Nat} {G : Dict Nat (List Nat)} (hK : 0 < K.length)
    (h : ∀ a L, (a, L) ∈ G → L = M a ∧ (M a).length = K.length) :
    ∃ t : List Nat, t.Perm (List.range K.length) ∧
      ((sorted G.keys).mapM fun rep => do assignRow K.length (← dictGet G rep)) = .ok ((sorted G.keys).map M) ∧
      sortColsTogether false [⟨(sorted G.keys).map M, K.length⟩] = .ok [⟨(sorted G.keys).map fun a => t.filterMap ((M a)[·]?), K.length⟩] ∧
      ∀ a0 ∈ G.keys, (∀ a ∈ G.keys, a0 ≤ a) → t.Pairwise fun i j => ∀ x y, (M a0)[i]? = some x → (M a0)[j]? = some y → x ≤ y := by
  have hval : ∀ a ∈ G.keys, dictGet G a = .ok (M a) ∧ (M a).length = K.length := by
    intro a ha
    obtain ⟨L, hL⟩ := Dict.mem_keys_iff.1 ha
    obtain ⟨h1, h2⟩ := h a L (Dict.get?_mem hL)
    unfold dictGet
    rw [hL, h1]
    exact ⟨rfl, h2⟩
  obtain ⟨t, t1, t2, t3⟩ := C111_sort_cols_together false [⟨(sorted G.keys).map M, K.length⟩] K.length (by simp) (by
    intro m hm r hr
    obtain rfl := List.mem_singleton.1 hm
    obtain ⟨a, ha, rfl⟩ := List.mem_map.1 hr
    exact (hval a (mem_sorted.1 ha)).2) (by simp) hK
  refine ⟨t, t1, ?_, ?_, ?_⟩
  · apply mapM_ok
    intro a ha
    obtain ⟨h1, h2⟩ := hval a (mem_sorted.1 ha)
    rw [h1]
    show assignRow K.length (M a) = _
    rw [assignRow, if_pos h2]
  · rw [t2]
    simp only [List.map_cons, List.map_nil, List.map_map]
    rfl
  · intro a0 ha0 hle
    have hs := sorted_pairwise G.keys
    obtain ⟨rest, hr⟩ : ∃ rest, sorted G.keys = a0 :: rest := by
      cases hl : sorted G.keys with
      | nil =>
        have := mem_sorted.2 ha0
        rw [hl] at this
        cases this
      | cons c rest =>
        rw [hl, List.pairwise_cons] at hs
        have hc := hle c (mem_sorted.1 (by rw [hl]; simp))
        have ha := mem_sorted.2 ha0
        rw [hl] at ha
        rcases List.mem_cons.1 ha with rfl | ha
        · exact ⟨rest, rfl⟩
        · have := hs.1 _ ha
          obtain rfl : a0 = c := by omega
          exact ⟨rest, rfl⟩
    refine t3.imp fun {i j} hij x y hx hy => ?_
    rw [hr] at hij
    simp only [List.map_cons, List.map_nil, Bool.false_eq_true, if_false] at hij
    rw [List.filterMap_cons_some (f := fun l : List Nat => l[i]?) hx, List.filterMap_cons_some (f := fun l : List Nat => l[j]?) hy] at hij
    have hij := not_lt.2 hij
    by_contra hc
    exact hij (List.Lex.rel (List.Lex.rel (by omega)))

/-- the order of the places that belongs to a group -/
def Arranges (M : Nat → List Nat) (K : List Nat) (G : Dict Nat (List Nat)) (t : List Nat) : Prop :=
  t.Perm (List.range K.length) ∧ ∀ a0 ∈ G.keys, (∀ a ∈ G.keys, a0 ≤ a) → t.Pairwise fun i j => ∀ x y, (M a0)[i]? = some x → (M a0)[j]? = some y → x ≤ y

theorem alignLoop_spec {s : Nat → Nat} {M : Nat → List Nat} (b : Nat) (D : Dict (List Nat) (Dict Nat (List Nat))) (hk : D.keys.Nodup)
    (hne : ∀ e ∈ D, e.2 ≠ []) (hm : ∀ e ∈ D, ∀ a L, (a, L) ∈ e.2 → e.1 = (M a).map s ∧ L = M a ∧ M a ≠ [])
    (d : Dict (Nat × Nat) (List Nat)) (hd : ∀ e ∈ D, ∀ a ∈ e.2.keys, (a, b) ∈ d.keys) :
    ∃ (d' : Dict (Nat × Nat) (List Nat)) (τ : List Nat → List Nat), alignLoop b D d = .ok d' ∧ d'.keys = d.keys ∧ (∀ e ∈ D, Arranges M e.1 e.2 (τ e.1)) ∧
      (∀ e ∈ D, ∀ a ∈ e.2.keys, d'.get? (a, b) = some ((τ e.1).filterMap ((M a)[·]?))) ∧
      ∀ k : Nat × Nat, (k.2 ≠ b ∨ ∀ e ∈ D, k.1 ∉ e.2.keys) → d'.get? k = d.get? k := by
  classical
  induction D generalizing d with
  | nil => exact ⟨d, fun _ => [], rfl, rfl, by simp, by simp, fun _ _ => rfl⟩
  | cons e D ih =>
    obtain ⟨K, G⟩ := e
    have hGm := hm (K, G) (by simp)
    have hGk : ∀ a ∈ G.keys, K = (M a).map s ∧ M a ≠ [] := by
      intro a ha
      obtain ⟨L, hL⟩ := Dict.mem_keys_iff.1 ha
      obtain ⟨h1, _, h3⟩ := hGm a L (Dict.get?_mem hL)
      exact ⟨h1, h3⟩
    have hK : 0 < K.length := by
      obtain ⟨⟨a, L⟩, hG⟩ := List.exists_mem_of_ne_nil _ (hne (K, G) (by simp))
      obtain ⟨h1, _, h3⟩ := hGm a L hG
      simp only at h1
      rw [h1, List.length_map]
      exact List.length_pos_of_ne_nil h3
    obtain ⟨t, t1, t2, t3, t4⟩ := align_group (M := M) (K := K) hK (by
      intro a L hL
      obtain ⟨h1, h2, _⟩ := hGm a L hL
      exact ⟨h2, by simp only at h1; rw [h1, List.length_map]⟩)
    set row : Nat → List Nat := fun a => t.filterMap ((M a)[·]?) with hrow
    have hzip : (sorted G.keys).zip ((sorted G.keys).map row) = (sorted G.keys).map fun a => (a, row a) := zip_map_self _ _
    set d1 := setRows b ((sorted G.keys).map fun a => (a, row a)) d with hd1
    have hd1k : d1.keys = d.keys := setRows_keys _ _ _ _ fun a ha => hd (K, G) (by simp) a (mem_sorted.1 ha)
    have hd1g := setRows_get b row (sorted G.keys) d
    rw [← hd1] at hd1g
    have hk' := List.nodup_cons.1 hk
    obtain ⟨d', τ, e1, e2, e3, e4, e5⟩ := ih hk'.2 (fun e he => hne e (by simp [he])) (fun e he => hm e (by simp [he])) d1
      (fun e he a ha => by rw [hd1k]; exact hd e (by simp [he]) a ha)
    have hKne : ∀ e ∈ D, e.1 ≠ K := by
      rintro e he rfl
      exact hk'.1 (List.mem_map.2 ⟨e, he, rfl⟩)
    refine ⟨d', fun K' => if K' = K then t else τ K', ?_, e2.trans hd1k, ?_, ?_, ?_⟩
    · rw [alignLoop]
      simp only [bind, Except.bind] at t2 ⊢
      rw [t2]
      simp only
      rw [t3]
      simp only [firstOf]
      rw [hzip, ← hd1]
      exact e1
    · intro e he
      rcases List.mem_cons.1 he with rfl | he
      · simp only [if_true]
        exact ⟨t1, t4⟩
      · simp only [if_neg (hKne e he)]
        exact e3 e he
    · intro e he a ha
      rcases List.mem_cons.1 he with rfl | he
      · simp only [if_true]
        rw [e5 (a, b), hd1g, if_pos ⟨rfl, mem_sorted.2 ha⟩]
        refine .inr fun e he hae => ?_
        obtain ⟨L, hL⟩ := Dict.mem_keys_iff.1 hae
        exact hKne e he (((hm e (by simp [he])) a L (Dict.get?_mem hL)).1.trans (hGk a ha).1.symm)
      · simp only [if_neg (hKne e he)]
        exact e4 e he a ha
    · intro k hkk
      rw [e5 k (hkk.imp id fun h e he => h e (by simp [he])), hd1g, if_neg]
      rintro ⟨h1, h2⟩
      rcases hkk with hkk | hkk
      · exact hkk h1
      · exact hkk (K, G) (by simp) (mem_sorted.1 h2)

theorem reorderLoop_spec {X : Dict (Nat × Nat) (List Nat)} {needs reps : List Nat} {s : Nat → Nat} {M : Nat → Nat → List Nat} (bs : List Nat) (hbs : bs.Nodup)
    (h : ∀ b ∈ bs, ∀ a ∈ reps, a ∈ needs → M b a ≠ [] ∧ ∃ L, X.get? (a, b) = some L ∧ L.mapM symIntval = .ok (L.map s) ∧
      sortTogetherAll [L.map s, L] = .ok [(M b a).map s, M b a]) (d : Dict (Nat × Nat) (List Nat)) (hd : d.keys = X.keys) :
    ∃ d', reorderLoop X needs reps bs d = .ok d' ∧ d'.keys = X.keys ∧
      (∀ b ∈ bs, ∃ (D : Dict (List Nat) (Dict Nat (List Nat))) (τ : List Nat → List Nat), Groups s (M b) (reps.filter fun a => decide (a ∈ needs)) D ∧
        (∀ e ∈ D, Arranges (M b) e.1 e.2 (τ e.1)) ∧ ∀ e ∈ D, ∀ a ∈ e.2.keys, d'.get? (a, b) = some ((τ e.1).filterMap ((M b a)[·]?))) ∧
      ∀ k : Nat × Nat, (k.2 ∉ bs ∨ k.1 ∉ needs) → d'.get? k = d.get? k := by
  induction bs generalizing d with
  | nil => exact ⟨d, rfl, hd, by simp, fun _ _ => rfl⟩
  | cons b bs ih =>
    have hbs' := List.nodup_cons.1 hbs
    have hb := h b (by simp)
    obtain ⟨D, D1, D2⟩ := symsetLoop_spec (X := X) (needs := needs) (b := b) (s := s) (M := M b) reps (fun a h1 h2 => (hb a h1 h2).2) (A := []) (D := [])
      ⟨List.nodup_nil, by simp, by simp, by simp⟩
    rw [List.nil_append] at D2
    have hDm : ∀ e ∈ D, ∀ a L, (a, L) ∈ e.2 → (a ∈ reps ∧ a ∈ needs) ∧ e.1 = (M b a).map s ∧ L = M b a := by
      rintro ⟨K, G⟩ he a L hL
      have := (D2.mem K a L).1 ⟨G, he, hL⟩
      simpa using this
    obtain ⟨d1, τ, e1, e2, e3, e4, e5⟩ := alignLoop_spec (s := s) (M := M b) b D D2.keys D2.nonempty (by
        intro e he a L hL
        obtain ⟨h1, h2, h3⟩ := hDm e he a L hL
        exact ⟨h2, h3, (hb a h1.1 h1.2).1⟩) d (by
        intro e he a ha
        obtain ⟨L, hL⟩ := Dict.mem_keys_iff.1 ha
        obtain ⟨h1, _⟩ := hDm e he a L (Dict.get?_mem hL)
        obtain ⟨_, L', hL', _⟩ := hb a h1.1 h1.2
        rw [hd]
        exact Dict.mem_keys_iff.2 ⟨L', hL'⟩)
    obtain ⟨d', f1, f2, f3, f4⟩ := ih hbs'.2 (fun b' hb' => h b' (by simp [hb'])) d1 (e2.trans hd)
    refine ⟨d', ?_, f2, ?_, ?_⟩
    · rw [reorderLoop, D1]
      simp only [bind, Except.bind]
      rw [e1]
      exact f1
    · intro b' hb'
      rcases List.mem_cons.1 hb' with rfl | hb'
      · refine ⟨D, τ, D2, e3, fun e he a ha => ?_⟩
        rw [f4 _ (.inl hbs'.1), e4 e he a ha]
      · exact f3 b' hb'
    · intro k hk
      rw [f4 k (hk.imp (fun h1 h2 => h1 (by simp [h2])) id), e5 k]
      rcases hk with hk | hk
      · exact .inl fun h => hk (by simp [h])
      · refine .inr fun e he hke => hk ?_
        obtain ⟨L, hL⟩ := Dict.mem_keys_iff.1 hke
        exact (hDm e he k.1 L (Dict.get?_mem hL)).1.2

/-! ## what the order is -/

/-- The reordered splinters.  Factions in `needs` are reordered, the others keep their splinters.  In a column, the new splinter of a reordered faction has the same
sequence of symmetries as the original splinter of the least reordered faction with the same symmetries, and entries with the same symmetry are ascending. -/
structure Aligned (sym : Nat → Nat) (needs : Nat → Prop) (raw new : Dict (Nat × Nat) (List Nat)) : Prop where
  keys : new.keys = raw.keys
  same : ∀ a b, ¬ needs a → new.get? (a, b) = raw.get? (a, b)
  aligned : ∀ a a₀ b L L₀, needs a → needs a₀ → raw.get? (a, b) = some L → raw.get? (a₀, b) = some L₀ → (L.map sym).Perm (L₀.map sym) →
    (∀ a' L', needs a' → raw.get? (a', b) = some L' → (L'.map sym).Perm (L₀.map sym) → a₀ ≤ a') →
    ∃ M, new.get? (a, b) = some M ∧ M.Perm L ∧ M.map sym = L₀.map sym ∧ M.Pairwise fun x y => sym x = sym y → x < y

theorem arranged_row {s : Nat → Nat} {L0 M M0 K t : List Nat} (hM : M.map s = K) (hM0 : M0.map s = K) (hMs : M.Pairwise fun x y => s x < s y ∨ s x = s y ∧ x ≤ y)
    (hM0s : M0.Pairwise fun x y => s x < s y ∨ s x = s y ∧ x ≤ y) (hMn : M.Nodup) (hM0n : M0.Nodup) (h0 : M0.Perm L0) (hL0 : L0.Pairwise (· < ·))
    (ht : t.Perm (List.range K.length)) (hto : t.Pairwise fun i j => ∀ x y, M0[i]? = some x → M0[j]? = some y → x ≤ y) :
    (t.filterMap (M[·]?)).Perm M ∧ (t.filterMap (M[·]?)).map s = L0.map s ∧ (t.filterMap (M[·]?)).Pairwise fun x y => s x = s y → x < y := by
  have hl : M.length = K.length := by rw [← hM, List.length_map]
  have hl0 : M0.length = K.length := by rw [← hM0, List.length_map]
  refine ⟨choose_perm (by rwa [hl]), ?_, ?_⟩
  · rw [choose_map, hM, ← hM0, ← choose_map]
    congr 1
    apply eq_of_perm_of_le ((choose_perm (by rwa [hl0])).trans h0) _ (hL0.imp le_of_lt)
    rw [List.pairwise_filterMap]
    exact hto.imp fun {i j} h x hx y hy => h x y hx hy
  · rw [List.pairwise_filterMap]
    refine ((hto.and (ht.nodup_iff.2 List.nodup_range))).imp fun {i j} h x hx y hy hs => ?_
    obtain ⟨h1, h2⟩ := h
    have hi : i < M.length := (List.getElem?_eq_some_iff.1 hx).1
    have hj : j < M.length := (List.getElem?_eq_some_iff.1 hy).1
    have hx' : M[i] = x := (List.getElem?_eq_some_iff.1 hx).2
    have hy' : M[j] = y := (List.getElem?_eq_some_iff.1 hy).2
    have hi0 : i < M0.length := by omega
    have hj0 : j < M0.length := by omega
    have hsi : s M0[i] = s x := by
      have h3 : (M0.map s)[i]? = (M.map s)[i]? := by rw [hM, hM0]
      simp only [List.getElem?_map, hx, List.getElem?_eq_getElem hi0, Option.map_some, Option.some.injEq] at h3
      exact h3
    have hsj : s M0[j] = s y := by
      have h3 : (M0.map s)[j]? = (M.map s)[j]? := by rw [hM, hM0]
      simp only [List.getElem?_map, hy, List.getElem?_eq_getElem hj0, Option.map_some, Option.some.injEq] at h3
      exact h3
    have hle := h1 _ _ (List.getElem?_eq_getElem hi0) (List.getElem?_eq_getElem hj0)
    have hij : i < j := by
      by_contra hc
      have hji : j < i := by omega
      have := List.pairwise_iff_getElem.1 hM0s j i hj0 hi0 hji
      have heq : M0[i] = M0[j] := by omega
      exact h2 ((List.Nodup.getElem_inj_iff hM0n).1 heq)
    have := List.pairwise_iff_getElem.1 hMs i j hi hj hij
    have hne : x ≠ y := by
      rw [← hx', ← hy']
      exact fun h => h2 ((List.Nodup.getElem_inj_iff hMn).1 h)
    rw [hx', hy'] at this
    omega

theorem reorder_aligned {X : Dict (Nat × Nat) (List Nat)} {needs reps bs : List Nat} {s : Nat → Nat} (hbs : bs.Nodup) (hk : ∀ k, k ∈ X.keys ↔ k.1 ∈ reps ∧ k.2 ∈ bs)
    (hL : ∀ k L, X.get? k = some L → L ≠ [] ∧ L.Pairwise (· < ·) ∧ (k.1 ∈ needs → L.mapM symIntval = .ok (L.map s))) :
    ∃ d', reorderLoop X needs reps bs X = .ok d' ∧ Aligned s (· ∈ needs) X d' := by
  have hsort : ∀ b a, ∃ M : List Nat, ∀ L, X.get? (a, b) = some L → sortTogetherAll [L.map s, L] = .ok [M.map s, M] ∧ M.Perm L ∧
      M.Pairwise fun x y => s x < s y ∨ s x = s y ∧ x ≤ y := by
    intro b a
    cases hg : X.get? (a, b) with
    | none => exact ⟨[], fun L h => by cases h⟩
    | some L =>
      obtain ⟨M, hM⟩ := sort_pair s (hL _ L hg).1
      exact ⟨M, fun L' h => by cases h; exact hM⟩
  choose M hM using hsort
  obtain ⟨d', f1, f2, f3, f4⟩ := reorderLoop_spec (X := X) (needs := needs) (reps := reps) (s := s) (M := M) bs hbs (by
    intro b hb a ha hn
    obtain ⟨L, hg⟩ := Dict.mem_keys_iff.1 ((hk (a, b)).2 ⟨ha, hb⟩)
    obtain ⟨h1, _, h3⟩ := hL _ L hg
    obtain ⟨m1, m2, _⟩ := hM b a L hg
    refine ⟨?_, L, hg, h3 hn, m1⟩
    intro h0
    rw [h0] at m2
    exact h1 m2.nil_eq.symm) X rfl
  refine ⟨d', f1, f2, fun a b hn => f4 (a, b) (.inr hn), ?_⟩
  intro a a₀ b L L₀ hn hn0 hg hg0 hp hmin
  have hab := (hk (a, b)).1 (Dict.mem_keys_iff.2 ⟨L, hg⟩)
  have hab0 := (hk (a₀, b)).1 (Dict.mem_keys_iff.2 ⟨L₀, hg0⟩)
  obtain ⟨D, τ, D1, D2, D3⟩ := f3 b hab.2
  obtain ⟨_, m2, m3⟩ := hM b a L hg
  obtain ⟨_, m2', m3'⟩ := hM b a₀ L₀ hg0
  have hle : ∀ l : List Nat, (l.Pairwise fun x y => s x < s y ∨ s x = s y ∧ x ≤ y) → (l.map s).Pairwise (· ≤ ·) := by
    intro l hl
    rw [List.pairwise_map]
    exact hl.imp fun h => by omega
  have hKK : (M b a).map s = (M b a₀).map s :=
    eq_of_perm_of_le ((m2.map s).trans (hp.trans (m2'.map s).symm)) (hle _ m3) (hle _ m3')
  obtain ⟨G, hG, hGa⟩ := (D1.mem ((M b a).map s) a (M b a)).2 ⟨by simpa using ⟨hab.1, hn⟩, rfl, rfl⟩
  have hGa0 : (a₀, M b a₀) ∈ G := by
    obtain ⟨G', hG', hGa'⟩ := (D1.mem ((M b a).map s) a₀ (M b a₀)).2 ⟨by simpa using ⟨hab0.1, hn0⟩, hKK, rfl⟩
    have := (Dict.get?_iff_mem D1.keys).2 hG
    rw [(Dict.get?_iff_mem D1.keys).2 hG'] at this
    cases this
    exact hGa'
  have hmem : ∀ x L, (x, L) ∈ G → x ∈ G.keys := fun x L h => List.mem_map.2 ⟨(x, L), h, rfl⟩
  obtain ⟨A1, A2⟩ := D2 _ hG
  have hto := A2 a₀ (hmem _ _ hGa0) (by
    intro a' ha'
    obtain ⟨L', hL'⟩ := Dict.mem_keys_iff.1 ha'
    have := (D1.mem ((M b a).map s) a' L').1 ⟨G, hG, Dict.get?_mem hL'⟩
    simp only [List.mem_filter, decide_eq_true_eq] at this
    obtain ⟨⟨h1, h2⟩, h3, _⟩ := this
    obtain ⟨L'', hg'⟩ := Dict.mem_keys_iff.1 ((hk (a', b)).2 ⟨h1, hab.2⟩)
    obtain ⟨_, m2'', _⟩ := hM b a' L'' hg'
    refine hmin a' L'' h2 hg' ?_
    have := (m2''.map s).symm
    rw [← h3, hKK] at this
    exact this.trans (m2'.map s))
  have hnd : ∀ l : List Nat, l.Pairwise (· < ·) → l.Nodup := fun l h => h.imp ne_of_lt
  obtain ⟨r1, r2, r3⟩ := arranged_row (s := s) (M := M b a) (M0 := M b a₀) (K := (M b a).map s) rfl hKK.symm m3 m3' (m2.nodup_iff.2 (hnd _ (hL _ _ hg).2.1))
    (m2'.nodup_iff.2 (hnd _ (hL _ _ hg0).2.1)) m2' (hL _ _ hg0).2.1 A1 hto
  exact ⟨_, D3 _ hG a (hmem _ _ hGa), r1.trans m2, r2, r3⟩

end Verif.BF
