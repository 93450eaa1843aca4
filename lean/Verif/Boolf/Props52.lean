import Verif.Boolf.Model12
import Verif.Boolf.Props51

/-!
# C102 and C103: families and clans divided into factions
-/

namespace Verif.BF
open Verif.Py Verif.BV Verif.P Verif.W Verif.SP
open Verif.A hiding Mat

theorem zhe_inj {f g : Boolf} (hf : Reach f) (hg : Reach g) {z : Nat} (h : f.zhe = .ok z) (h' : g.zhe = .ok z) : f = g := by
  rw [zhe_Z hf.canon.toSound (le_max_left f.adicity g.adicity)] at h
  rw [zhe_Z hg.canon.toSound (le_max_right f.adicity g.adicity)] at h'
  exact Z_inj hf.canon hg.canon (le_max_left _ _) (le_max_right _ _) ((Except.ok.inj h).trans (Except.ok.inj h').symm)

theorem zhe_exists {f : Boolf} (hf : Reach f) : ∃ z, f.zhe = .ok z := ⟨_, zhe_Z hf.canon.toSound le_rfl⟩

theorem factionRepZhe_spec {f : Boolf} (hf : Reach f) : ∃ r z, f.factionMinrep = .ok (some r) ∧ Reach r ∧ r.zhe = .ok z ∧ f.factionRepZhe = .ok z := by
  obtain ⟨r, z, r1, r2, _, r4, _⟩ := C100_faction_minrep f hf
  refine ⟨r, z, r1, r2, r4, ?_⟩
  unfold Boolf.factionRepZhe
  rw [r1]
  exact r4

theorem factionRepZhe_iff {f g : Boolf} (hf : Reach f) (hg : Reach g) : f.factionRepZhe = g.factionRepZhe ↔ ∃ n, Renamed n f g := by
  rw [← C100_same_faction f g hf hg]
  obtain ⟨r, z, r1, r2, r3, r4⟩ := factionRepZhe_spec hf
  obtain ⟨s, y, s1, s2, s3, s4⟩ := factionRepZhe_spec hg
  constructor
  · intro h
    rw [r4, s4] at h
    cases h
    rw [r1, s1, zhe_inj r2 s2 r3 s3]
  · intro h
    rw [r1, s1] at h
    cases h
    rw [r3] at s3
    cases s3
    rw [r4, s4]

/-- The dictionary of the first loop, after the functions of the list. -/
structure Grouped (S : List Boolf) (raw : Dict Nat (List Nat)) : Prop where
  nodup : raw.keys.Nodup
  vals : ∀ k l, raw.get? k = some l → l ≠ [] ∧ l.Nodup ∧ ∀ z, z ∈ l ↔ ∃ g ∈ S, g.factionRepZhe = .ok k ∧ g.zhe = .ok z
  keys : ∀ k, k ∈ raw.keys ↔ ∃ g ∈ S, g.factionRepZhe = .ok k

theorem groupLoop_spec (L S : List Boolf) (raw : Dict Nat (List Nat)) (hn : (S ++ L).Nodup) (hr : ∀ g ∈ S ++ L, Reach g) (h : Grouped S raw) :
    ∃ raw', groupLoop L raw = .ok raw' ∧ Grouped (S ++ L) raw' := by
  induction L generalizing S raw with
  | nil => exact ⟨raw, rfl, by rwa [List.append_nil]⟩
  | cons g L ih =>
    obtain ⟨_, k, _, _, _, hk⟩ := factionRepZhe_spec (hr g (by simp))
    obtain ⟨z, hz⟩ := zhe_exists (hr g (by simp))
    have hgS : g ∉ S := fun hc => List.disjoint_of_nodup_append hn hc List.mem_cons_self
    have hnew : Grouped (S ++ [g]) (raw.set k (((raw.get? k).getD []) ++ [z])) := by
      constructor
      · exact Dict.nodup_keys_set h.nodup _ _
      · intro k' l hl
        rw [Dict.get?_set] at hl
        by_cases hkk : k = k'
        · subst hkk
          rw [if_pos rfl] at hl
          cases hl
          refine ⟨by simp, ?_, ?_⟩
          · cases hg : raw.get? k with
            | none => simp
            | some l =>
              obtain ⟨_, h2, h3⟩ := h.vals k l hg
              simp only [Option.getD_some]
              rw [List.nodup_append]
              refine ⟨h2, by simp, ?_⟩
              intro a ha b hb hab
              rw [List.mem_singleton] at hb
              subst hb
              subst hab
              obtain ⟨g', g1, _, g3⟩ := (h3 a).1 ha
              exact hgS (zhe_inj (hr g (by simp)) (hr g' (by simp [g1])) hz g3 ▸ g1)
          · intro y
            have hold : y ∈ (raw.get? k).getD [] ↔ ∃ g ∈ S, g.factionRepZhe = .ok k ∧ g.zhe = .ok y := by
              cases hg : raw.get? k with
              | none =>
                simp only [Option.getD_none, List.not_mem_nil, false_iff]
                rintro ⟨g', g1, g2, _⟩
                obtain ⟨l, hl⟩ := Dict.mem_keys_iff.1 ((h.keys k).2 ⟨g', g1, g2⟩)
                rw [hg] at hl
                cases hl
              | some l => exact (h.vals k l hg).2.2 y
            rw [List.mem_append, hold, List.mem_singleton]
            constructor
            · rintro (⟨g', g1, g2⟩ | rfl)
              · exact ⟨g', by simp [g1], g2⟩
              · exact ⟨g, by simp, hk, hz⟩
            · rintro ⟨g', g1, g2, g3⟩
              rcases List.mem_append.1 g1 with h1 | h1
              · exact .inl ⟨g', h1, g2, g3⟩
              · rw [List.mem_singleton] at h1
                subst h1
                rw [hz] at g3
                cases g3
                exact .inr rfl
        · rw [if_neg hkk] at hl
          obtain ⟨h1, h2, h3⟩ := h.vals k' l hl
          refine ⟨h1, h2, fun y => (h3 y).trans ⟨?_, ?_⟩⟩
          · rintro ⟨g', g1, g2⟩
            exact ⟨g', by simp [g1], g2⟩
          · rintro ⟨g', g1, g2, g3⟩
            rcases List.mem_append.1 g1 with h1 | h1
            · exact ⟨g', h1, g2, g3⟩
            · rw [List.mem_singleton] at h1
              subst h1
              rw [hk] at g2
              cases g2
              exact absurd rfl hkk
      · intro k'
        rw [Dict.mem_keys_iff]
        simp only [Dict.get?_set]
        by_cases hkk : k = k'
        · subst hkk
          simp only [if_true, Option.some.injEq, exists_eq', true_iff]
          exact ⟨g, by simp, hk⟩
        · simp only [if_neg hkk]
          rw [← Dict.mem_keys_iff, h.keys]
          constructor
          · rintro ⟨g', g1, g2⟩
            exact ⟨g', by simp [g1], g2⟩
          · rintro ⟨g', g1, g2⟩
            rcases List.mem_append.1 g1 with h1 | h1
            · exact ⟨g', h1, g2⟩
            · rw [List.mem_singleton] at h1
              subst h1
              rw [hk] at g2
              cases g2
              exact absurd rfl hkk
    obtain ⟨raw', r1, r2⟩ := ih (S ++ [g]) _ (by simpa using hn) (by simpa using hr) hnew
    refine ⟨raw', ?_, by simpa using r2⟩
    unfold groupLoop
    simp only [hk, hz, bind, Except.bind]
    exact r1

theorem pyMinNat_sorted {l : List Nat} (h : l ≠ []) : pyMinNat (sorted l) = .ok ((sorted l).headD 0) := by
  have h1 := sorted_pairwise l
  have h2 : sorted l ≠ [] := fun hc => h (List.Perm.nil_eq (hc ▸ sorted_perm l)).symm
  cases hs : sorted l with
  | nil => exact absurd hs h2
  | cons x xs =>
    rw [hs] at h1
    show Except.ok (xs.foldl min x) = _
    rw [List.headD_cons]
    congr 1
    have hx : ∀ y ∈ xs, x ≤ y := (List.pairwise_cons.1 h1).1
    clear h1 hs
    induction xs with
    | nil => rfl
    | cons y ys ih =>
      rw [List.foldl_cons, Nat.min_eq_left (hx y (by simp))]
      exact ih fun y hy => hx y (by simp [hy])

/-- the entry of the result for a key of the first dictionary -/
def entryOf (raw : Dict Nat (List Nat)) (k : Nat) : Nat × List Nat := ((sorted ((raw.get? k).getD [])).headD 0, sorted ((raw.get? k).getD []))

theorem splinterLoop_spec {raw : Dict Nat (List Nat)} {S : List Boolf} (h : Grouped S raw) (K : List Nat) (hK : ∀ k ∈ K, k ∈ raw.keys) (result : Dict Nat (List Nat))
    (hn : (result.keys ++ K.map fun k => (entryOf raw k).1).Nodup) : splinterLoop raw K result = .ok (result ++ K.map (entryOf raw)) := by
  induction K generalizing result with
  | nil => rw [List.map_nil, List.append_nil]; rfl
  | cons k K ih =>
    obtain ⟨l, hl⟩ := Dict.mem_keys_iff.1 (hK k (by simp))
    obtain ⟨h1, _, _⟩ := h.vals k l hl
    have he : entryOf raw k = ((sorted l).headD 0, sorted l) := by unfold entryOf; rw [hl]; rfl
    have hnot : (sorted l).headD 0 ∉ result.keys := by
      intro hc
      refine List.disjoint_of_nodup_append hn hc ?_
      simp [he]
    unfold splinterLoop
    simp only [bind, Except.bind, dictGet, hl, pyMinNat_sorted h1]
    rw [Dict.set_of_not_mem _ hnot, ih (fun k hk => hK k (by simp [hk])) _ (by simpa [Dict.keys, he] using hn), List.map_cons, he, List.append_assoc]
    rfl

theorem factionsLoop_spec {raw : Dict Nat (List Nat)} {S : List Boolf} (h : Grouped S raw) (K : List Nat) (hK : ∀ k ∈ K, k ∈ raw.keys) (result : Dict Nat (List Nat))
    (hn : (result.keys ++ K.map fun k => (entryOf raw k).1).Nodup) (hrep : ∀ k ∈ K, (entryOf raw k).1 = k) :
    factionsLoop raw K result = .ok (result ++ K.map (entryOf raw)) := by
  induction K generalizing result with
  | nil => rw [List.map_nil, List.append_nil]; rfl
  | cons k K ih =>
    obtain ⟨l, hl⟩ := Dict.mem_keys_iff.1 (hK k (by simp))
    obtain ⟨h1, _, _⟩ := h.vals k l hl
    have he : entryOf raw k = ((sorted l).headD 0, sorted l) := by unfold entryOf; rw [hl]; rfl
    have hk := hrep k (by simp)
    rw [he] at hk
    replace hk : (sorted l).headD 0 = k := hk
    have hnot : k ∉ result.keys := by
      intro hc
      refine List.disjoint_of_nodup_append hn hc ?_
      simp only [List.map_cons, he]
      rw [hk]
      simp
    unfold factionsLoop
    simp only [bind, Except.bind, dictGet, hl, pyMinNat_sorted h1]
    rw [if_pos hk.symm, Dict.set_of_not_mem _ hnot, ih (fun k hk => hK k (by simp [hk])) _ (by rw [List.map_cons, he, hk] at hn; simpa [Dict.keys] using hn)
      (fun k hk => hrep k (by simp [hk])), List.map_cons, he, hk, List.append_assoc]
    rfl

/-- A dictionary that divides a set of functions into the parts that belong to the same faction. The functions are given by their Zhegalkin indices, and
the keys are the least indices of the parts. -/
structure Division (member : Boolf → Prop) (D : Dict Nat (List Nat)) : Prop where
  keys : D.keys.Nodup
  asc : ∀ e ∈ D, e.2.Pairwise (· < ·)
  least : ∀ e ∈ D, e.2.head? = some e.1
  all : ∀ g z, Reach g → g.zhe = .ok z → ((∃ e ∈ D, z ∈ e.2) ↔ member g)
  disjoint : D.Pairwise fun e e' => ∀ z ∈ e.2, z ∉ e'.2
  same : ∀ g h y z, Reach g → Reach h → member g → member h → g.zhe = .ok y → h.zhe = .ok z → ((∃ e ∈ D, y ∈ e.2 ∧ z ∈ e.2) ↔ ∃ n, Renamed n g h)

theorem entryOf_spec {raw : Dict Nat (List Nat)} {S : List Boolf} (h : Grouped S raw) {k : Nat} (hk : k ∈ raw.keys) :
    (entryOf raw k).2.Pairwise (· < ·) ∧ (entryOf raw k).2.head? = some (entryOf raw k).1 ∧
      ∀ z, z ∈ (entryOf raw k).2 ↔ ∃ g ∈ S, g.factionRepZhe = .ok k ∧ g.zhe = .ok z := by
  obtain ⟨l, hl⟩ := Dict.mem_keys_iff.1 hk
  obtain ⟨h1, h2, h3⟩ := h.vals k l hl
  unfold entryOf
  rw [hl]
  simp only [Option.getD_some]
  refine ⟨sorted_pairwise_lt h2, ?_, fun z => by rw [mem_sorted, h3]⟩
  cases hs : sorted l with
  | nil => exact absurd (List.Perm.nil_eq (hs ▸ sorted_perm l)).symm h1
  | cons x xs => rfl

theorem entry_fst_inj {raw : Dict Nat (List Nat)} {S : List Boolf} (hr : ∀ g ∈ S, Reach g) (h : Grouped S raw) {k k' z : Nat} (hk : k ∈ raw.keys) (hk' : k' ∈ raw.keys)
    (hz : z ∈ (entryOf raw k).2) (hz' : z ∈ (entryOf raw k').2) : k = k' := by
  obtain ⟨g, g1, g2, g3⟩ := ((entryOf_spec h hk).2.2 z).1 hz
  obtain ⟨g', g1', g2', g3'⟩ := ((entryOf_spec h hk').2.2 z).1 hz'
  obtain rfl := zhe_inj (hr g g1) (hr g' g1') g3 g3'
  rw [g2] at g2'
  exact Except.ok.inj g2'

theorem entry_head_mem {raw : Dict Nat (List Nat)} {S : List Boolf} (h : Grouped S raw) {k : Nat} (hk : k ∈ raw.keys) : (entryOf raw k).1 ∈ (entryOf raw k).2 :=
  List.mem_of_mem_head? (entryOf_spec h hk).2.1

theorem heads_nodup {raw : Dict Nat (List Nat)} {S : List Boolf} (hr : ∀ g ∈ S, Reach g) (h : Grouped S raw) : ((sorted raw.keys).map fun k => (entryOf raw k).1).Nodup := by
  apply List.Nodup.map_on
  · intro k hk k' hk' he
    rw [mem_sorted] at hk hk'
    have h1 := entry_head_mem h hk
    rw [he] at h1
    exact entry_fst_inj hr h hk hk' h1 (entry_head_mem h hk')
  · exact (sorted_perm _).nodup_iff.2 h.nodup

theorem division {raw : Dict Nat (List Nat)} {S : List Boolf} {member : Boolf → Prop} (hS : ∀ g, g ∈ S ↔ Reach g ∧ member g) (h : Grouped S raw) :
    Division member ((sorted raw.keys).map (entryOf raw)) := by
  have hr : ∀ g ∈ S, Reach g := fun g hg => ((hS g).1 hg).1
  constructor
  · show (((sorted raw.keys).map (entryOf raw)).map Prod.fst).Nodup
    rw [List.map_map]
    exact heads_nodup hr h
  · intro e he
    obtain ⟨k, hk, rfl⟩ := List.mem_map.1 he
    exact (entryOf_spec h (mem_sorted.1 hk)).1
  · intro e he
    obtain ⟨k, hk, rfl⟩ := List.mem_map.1 he
    exact (entryOf_spec h (mem_sorted.1 hk)).2.1
  · intro g z hg hz
    constructor
    · rintro ⟨e, he, hze⟩
      obtain ⟨k, hk, rfl⟩ := List.mem_map.1 he
      obtain ⟨g', g1, g2, g3⟩ := ((entryOf_spec h (mem_sorted.1 hk)).2.2 z).1 hze
      obtain rfl := zhe_inj hg (hr g' g1) hz g3
      exact ((hS g).1 g1).2
    · intro hm
      have hgS := (hS g).2 ⟨hg, hm⟩
      obtain ⟨_, k, _, _, _, hk⟩ := factionRepZhe_spec hg
      have hkk := (h.keys k).2 ⟨g, hgS, hk⟩
      exact ⟨_, List.mem_map.2 ⟨k, mem_sorted.2 hkk, rfl⟩, ((entryOf_spec h hkk).2.2 z).2 ⟨g, hgS, hk, hz⟩⟩
  · rw [List.pairwise_map]
    refine List.Pairwise.imp_of_mem ?_ ((sorted_perm _).nodup_iff.2 h.nodup)
    intro k k' hk hk' hne z hz hz'
    exact hne (entry_fst_inj hr h (mem_sorted.1 hk) (mem_sorted.1 hk') hz hz')
  · intro g g' y z hg hg' hm hm' hy hz
    rw [← factionRepZhe_iff hg hg']
    constructor
    · rintro ⟨e, he, h1, h2⟩
      obtain ⟨k, hk, rfl⟩ := List.mem_map.1 he
      obtain ⟨a, a1, a2, a3⟩ := ((entryOf_spec h (mem_sorted.1 hk)).2.2 y).1 h1
      obtain ⟨b, b1, b2, b3⟩ := ((entryOf_spec h (mem_sorted.1 hk)).2.2 z).1 h2
      obtain rfl := zhe_inj hg (hr a a1) hy a3
      obtain rfl := zhe_inj hg' (hr b b1) hz b3
      rw [a2, b2]
    · intro he
      obtain ⟨_, k, _, _, _, hk⟩ := factionRepZhe_spec hg
      have hgS := (hS g).2 ⟨hg, hm⟩
      have hkk := (h.keys k).2 ⟨g, hgS, hk⟩
      exact ⟨_, List.mem_map.2 ⟨k, mem_sorted.2 hkk, rfl⟩, ((entryOf_spec h hkk).2.2 y).2 ⟨g, hgS, hk, hy⟩,
        ((entryOf_spec h hkk).2.2 z).2 ⟨g', (hS g').2 ⟨hg', hm'⟩, he ▸ hk, hz⟩⟩

/-- the entries come in the order of the representatives of the factions -/
theorem division_order {raw : Dict Nat (List Nat)} {S : List Boolf} (hr : ∀ g ∈ S, Reach g) (h : Grouped S raw) :
    ((sorted raw.keys).map (entryOf raw)).Pairwise fun e e' => ∀ g g' r r' y y', Reach g → Reach g' → g.zhe = .ok e.1 → g'.zhe = .ok e'.1 →
      g.factionMinrep = .ok (some r) → g'.factionMinrep = .ok (some r') → r.zhe = .ok y → r'.zhe = .ok y' → y < y' := by
  rw [List.pairwise_map]
  refine List.Pairwise.imp_of_mem ?_ (sorted_pairwise_lt h.nodup)
  intro k k' hk hk' hlt g g' r r' y y' hg hg' hz hz' hrr hrr' hy hy'
  have key : ∀ {k : Nat} {g r : Boolf} {y : Nat}, k ∈ sorted raw.keys → Reach g → g.zhe = .ok (entryOf raw k).1 → g.factionMinrep = .ok (some r) → r.zhe = .ok y → y = k := by
    intro k g r y hk hg hz hrr hy
    obtain ⟨a, a1, a2, a3⟩ := ((entryOf_spec h (mem_sorted.1 hk)).2.2 _).1 (entry_head_mem h (mem_sorted.1 hk))
    obtain rfl := zhe_inj hg (hr a a1) hz a3
    obtain ⟨r', z, r1, _, r3, r4⟩ := factionRepZhe_spec hg
    rw [hrr] at r1
    cases r1
    rw [r3] at hy
    cases hy
    rw [r4] at a2
    exact Except.ok.inj a2
  rw [key hk hg hz hrr hy, key hk' hg' hz' hrr' hy']
  exact hlt

/-- **C102.** `ec_family_splinters` divides the functions that arise by negating atoms into those that arise from each other by replacing atoms. -/
theorem C102_family_splinters (f : Boolf) (hf : Reach f) (ha : f.isConstant = true ∨ f.adicity ≤ 10) :
    ∃ D, f.ecFamilySplinters = .ok D ∧ Division (Negated f) D ∧
      D.Pairwise fun e e' => ∀ g g' r r' y y', Reach g → Reach g' → g.zhe = .ok e.1 → g'.zhe = .ok e'.1 →
        g.factionMinrep = .ok (some r) → g'.factionMinrep = .ok (some r') → r.zhe = .ok y → r'.zhe = .ok y' → y < y' := by
  obtain ⟨E, hE, hnd⟩ : ∃ E, f.ecFamily = .ok E ∧ (E.part.blockLabels.map Prod.snd).Nodup := by
    by_cases hc : f.isConstant = true
    · obtain ⟨E, h1, _, h3⟩ := (C94_family f hf.obj).1 hc
      exact ⟨E, h1, h3.nodup⟩
    · obtain ⟨E, _, h1, _, h3, _⟩ := (C94_family f hf.obj).2.1 (by simpa using hc) (ha.resolve_left hc)
      exact ⟨E, h1, h3.nodup⟩
  have hS := C94_members f hf E hE
  obtain ⟨raw, r1, r2⟩ := groupLoop_spec (E.part.blockLabels.map Prod.snd) [] [] (by simpa using hnd) (fun g hg => ((hS g).1 (by simpa using hg)).1)
    ⟨by simp [Dict.keys], fun k l h => by simp [Dict.get?] at h, fun k => by simp [Dict.keys]⟩
  rw [List.nil_append] at r2
  have hr : ∀ g ∈ E.part.blockLabels.map Prod.snd, Reach g := fun g hg => ((hS g).1 hg).1
  refine ⟨_, ?_, division hS r2, division_order hr r2⟩
  unfold Boolf.ecFamilySplinters
  rw [hE]
  simp only [bind, Except.bind]
  rw [r1]
  simp only
  rw [splinterLoop_spec r2 (sorted raw.keys) (fun k hk => mem_sorted.1 hk) [] (by simpa [Dict.keys] using heads_nodup hr r2), List.nil_append]

/-- The family of the conjunction of two atoms. -/
example : ∃ f, newTT (.str "0001".toList) = .ok f ∧ Reach f ∧ f.isConstant = false ∧ f.adicity ≤ 10 ∧ f.ecFamilySplinters = .ok [(8, [8]), (10, [10, 12]), (15, [15])] := by
  obtain ⟨_, e1, e2⟩ := newTT_explicit "0001".toList [false, false, false, true] [0, 1] 2 (by decide) (by decide) (by decide) (by intro n; simp; omega) (by decide) (by decide)
  exact ⟨_, e1 (by decide), e2.reach, by decide, by decide, by decide +kernel⟩

theorem C102_errors (f : Boolf) (hf : Reach f) (hc : f.isConstant = false) (ha : 10 < f.adicity) : f.ecFamilySplinters = .error .argNotFeasible := by
  unfold Boolf.ecFamilySplinters
  rw [(C94_family f hf.obj).2.2 hc ha]
  rfl

theorem Renamed.signed {n : Nat} {f g : Boolf} (h : Renamed n f g) : SignedRenamed n f g := by
  obtain ⟨r, h1, h2, h3⟩ := h
  exact ⟨r, fun _ => false, h1, h2, fun key key' hk => h3 key key' fun x hx => by rw [hk x hx, Bool.xor_false]⟩

theorem SignedRenamed.adicity {n : Nat} {f g : Boolf} (hf : Reach f) (hg : Reach g) (h : SignedRenamed n f g) : g.adicity ≤ n := by
  obtain ⟨r, s, h1, h2⟩ := h.replaced hf hg
  rw [hg.canon.adic]
  intro y hy
  obtain ⟨x, hx, rfl⟩ := (h2.mem hf.canon hg.canon y).1 hy
  exact h1 x hx

theorem SignedRenamed.mono {m n : Nat} {f g : Boolf} (h : SignedRenamed m f g) (hmn : m ≤ n) : SignedRenamed n f g := by
  obtain ⟨r, s, h1, h2⟩ := h
  exact ⟨r, s, fun x hx => lt_of_lt_of_le (h1 x hx) hmn, h2⟩

theorem clan_factions {f : Boolf} {arity : Option Int} {E : EcPart} (hE : f.ecClan 1 arity false = .ok E) {member : Boolf → Prop}
    (hnd : (E.part.blockLabels.map Prod.snd).Nodup) (hS : ∀ g, g ∈ E.part.blockLabels.map Prod.snd ↔ Reach g ∧ member g)
    (hrep : ∀ g r, Reach g → member g → g.factionMinrep = .ok (some r) → member r) :
    ∃ D, f.ecClanFactions arity = .ok D ∧ Division member D ∧ D.keys.Pairwise (· < ·) ∧
      ∀ e ∈ D, ∀ g r, Reach g → (∃ z ∈ e.2, g.zhe = .ok z) → g.factionMinrep = .ok (some r) → r.zhe = .ok e.1 := by
  obtain ⟨raw, r1, r2⟩ := groupLoop_spec (E.part.blockLabels.map Prod.snd) [] [] (by simpa using hnd) (fun g hg => ((hS g).1 (by simpa using hg)).1)
    ⟨by simp [Dict.keys], fun k l h => by simp [Dict.get?] at h, fun k => by simp [Dict.keys]⟩
  rw [List.nil_append] at r2
  have hr : ∀ g ∈ E.part.blockLabels.map Prod.snd, Reach g := fun g hg => ((hS g).1 hg).1
  -- the representative is the least one
  have hmin : ∀ k ∈ raw.keys, (entryOf raw k).1 = k := by
    intro k hk
    obtain ⟨e1, e2, e3⟩ := entryOf_spec r2 hk
    obtain ⟨g, g1, g2, g3⟩ := (e3 _).1 (entry_head_mem r2 hk)
    obtain ⟨r, z, s1, s2, s3, s4, s5⟩ := C100_faction_minrep g (hr g g1)
    obtain ⟨r', z', t1, t2, t3, t4⟩ := factionRepZhe_spec (hr g g1)
    rw [s1] at t1
    cases t1
    rw [g2] at t4
    cases t4
    rw [s4] at t3
    cases t3
    have hrS : r ∈ E.part.blockLabels.map Prod.snd := (hS r).2 ⟨s2, hrep g r (hr g g1) ((hS g).1 g1).2 s1⟩
    have hkr : r.factionRepZhe = .ok k := by rw [← g2]; exact ((factionRepZhe_iff (hr g g1) s2).2 ⟨_, s3⟩).symm
    have hkm : k ∈ (entryOf raw k).2 := (e3 k).2 ⟨r, hrS, hkr, s4⟩
    obtain ⟨y, y1, y2, _⟩ := s5 g.adicity g (hr g g1) (by
      obtain ⟨q, q1⟩ := Renamed.symm (hr g g1) s2 s3
      exact (s3.trans (hr g g1) s2 (hr g g1) (s3.symm (hr g g1) s2)))
    rw [g3] at y1
    cases y1
    apply le_antisymm _ y2
    -- the head is least
    cases hl : (entryOf raw k).2 with
    | nil => rw [hl] at hkm; cases hkm
    | cons x xs =>
      rw [hl] at e1 e2 hkm
      cases e2
      rcases List.mem_cons.1 hkm with h | h
      · exact le_of_eq h.symm
      · exact le_of_lt ((List.pairwise_cons.1 e1).1 k h)
  refine ⟨_, ?_, division hS r2, ?_, ?_⟩
  · unfold Boolf.ecClanFactions
    rw [hE]
    simp only [bind, Except.bind]
    rw [r1]
    simp only
    rw [factionsLoop_spec r2 (sorted raw.keys) (fun k hk => mem_sorted.1 hk) [] (by simpa [Dict.keys] using heads_nodup hr r2) (fun k hk => hmin k (mem_sorted.1 hk)),
      List.nil_append]
  · show (((sorted raw.keys).map (entryOf raw)).map Prod.fst).Pairwise (· < ·)
    rw [List.map_map, List.pairwise_map]
    refine List.Pairwise.imp_of_mem ?_ (sorted_pairwise_lt r2.nodup)
    intro k k' hk hk' h
    simp only [Function.comp]
    rw [hmin k (mem_sorted.1 hk), hmin k' (mem_sorted.1 hk')]
    exact h
  · intro e he g r hg ⟨z, hz, hzg⟩ hgr
    obtain ⟨k, hk, rfl⟩ := List.mem_map.1 he
    rw [hmin k (mem_sorted.1 hk)]
    obtain ⟨a, a1, a2, a3⟩ := ((entryOf_spec r2 (mem_sorted.1 hk)).2.2 z).1 hz
    obtain rfl := zhe_inj hg (hr a a1) hzg a3
    obtain ⟨r', y, t1, _, t3, t4⟩ := factionRepZhe_spec hg
    rw [hgr] at t1
    cases t1
    rw [a2] at t4
    cases t4
    exact t3

/-- **C103.** `ec_clan_factions` divides the functions that arise by replacing the atoms with places below the arity and negating some into those that arise from
each other by replacing atoms. The keys are the Zhegalkin indices of the representatives of the factions (the assertion never fails). -/
theorem C103_clan_factions (f : Boolf) (hf : Reach f) (hc : f.isConstant = false) (ha : f.adicity ≤ 5) (arity : Option Int) (n : Nat) (hn : f.Places arity n) :
    ∃ D, f.ecClanFactions arity = .ok D ∧ Division (SignedRenamed n f) D ∧ D.keys.Pairwise (· < ·) ∧
      ∀ e ∈ D, ∀ g r, Reach g → (∃ z ∈ e.2, g.zhe = .ok z) → g.factionMinrep = .ok (some r) → r.zhe = .ok e.1 := by
  obtain ⟨E, hE, hnd⟩ : ∃ E, f.ecClan 1 arity false = .ok E ∧ (E.part.blockLabels.map Prod.snd).Nodup := by
    by_cases h : n = f.valency
    · obtain ⟨E, _, h1, _, _, h3, _⟩ := C96_redundant f hf.obj hc ha arity false n hn (.inl h)
      exact ⟨E, h1 0, h3.nodup⟩
    · obtain ⟨E, _, _, h1, _, _, _, _, _, h3, _⟩ := C96_abbreviated f hf.obj hc ha arity n hn h
      exact ⟨E, h1 0, h3.nodup⟩
  refine clan_factions hE hnd (C96_members 1 f hf hc arity false n hn E hE) ?_
  intro g r hg hm hgr
  obtain ⟨r', z, r1, r2, r3, _⟩ := C100_faction_minrep g hg
  rw [hgr] at r1
  cases r1
  exact (hm.trans hf hg r2 r3.signed).mono (hm.adicity hf hg)

/-- The clan of the conjunction of two atoms. -/
example : ∃ f, newTT (.str "0001".toList) = .ok f ∧ Reach f ∧ f.isConstant = false ∧ f.adicity ≤ 5 ∧ f.Places none 2 ∧
    f.ecClanFactions none = .ok [(8, [8]), (10, [10, 12]), (15, [15])] := by
  obtain ⟨_, e1, e2⟩ := newTT_explicit "0001".toList [false, false, false, true] [0, 1] 2 (by decide) (by decide) (by decide) (by intro n; simp; omega) (by decide) (by decide)
  exact ⟨_, e1 (by decide), e2.reach, by decide, by decide, .inl ⟨rfl, by decide⟩, by decide +kernel⟩

/-- **C103.** For a constant there is only one function, whatever the arity. -/
theorem C103_constant (b : Bool) (arity : Option Int) : (setConstant b).ecClanFactions arity = .ok [(b.toNat, [b.toNat])] := by
  have hc : (setConstant b).isConstant = true := rfl
  have hf : Reach (setConstant b) := by
    cases b
    · exact reach_newTT newTT_str0
    · exact reach_newTT newTT_str1
  obtain ⟨E, h1, _, _, h3⟩ := C96_constant 0 (setConstant b) hc arity
  have hS : ∀ g, g ∈ E.part.blockLabels.map Prod.snd ↔ Reach g ∧ g = setConstant b := by
    intro g
    rw [h3.labels]
    constructor
    · rintro ⟨_, _, rfl⟩; exact ⟨hf, rfl⟩
    · rintro ⟨_, rfl⟩; exact ⟨0, by omega, rfl⟩
  obtain ⟨D, d1, d2, _, _⟩ := clan_factions h1 h3.nodup hS (by
    rintro g r _ rfl hr
    have : (setConstant b).factionMinrep = .ok (some (setConstant b)) := by unfold Boolf.factionMinrep; rw [if_pos hc]
    rw [this] at hr
    cases hr
    rfl)
  have hz : (setConstant b).zhe = .ok b.toNat := by cases b <;> decide +kernel
  rw [d1]
  congr 1
  -- the only entry
  obtain ⟨e, he, hze⟩ := (d2.all _ _ hf hz).2 rfl
  have hall : ∀ e' ∈ D, ∀ z ∈ e'.2, z = b.toNat := by
    intro e' he' z hz'
    obtain ⟨g, _, g2, g3, _⟩ := C50_zhe_index z
    have := (d2.all g z g2 g3).1 ⟨e', he', hz'⟩
    rw [this, hz] at g3
    exact (Except.ok.inj g3).symm
  have hent : ∀ e' ∈ D, e' = (b.toNat, [b.toNat]) := by
    intro e' he'
    have h1 := d2.least e' he'
    have h2 := d2.asc e' he'
    obtain ⟨x, l⟩ := e'
    simp only at h1 h2
    have h3 := hall _ he'
    cases l with
    | nil => cases h1
    | cons y ys =>
      cases h1
      have hx : x = b.toNat := h3 x (by simp)
      cases ys with
      | nil => rw [hx]
      | cons y ys =>
        have := (List.pairwise_cons.1 h2).1 y (by simp)
        have := h3 y (by simp)
        omega
  have hk := d2.keys
  match D, hk, hent, he with
  | [e1], _, hent, _ => rw [hent e1 (by simp)]
  | e1 :: e2 :: D, hk, hent, _ =>
    simp [Dict.keys, hent e1 (by simp), hent e2 (by simp)] at hk

theorem C103_errors (f : Boolf) (hc : f.isConstant = false) (arity : Option Int) :
    (5 < f.adicity → f.ecClanFactions arity = .error .argNotFeasible) ∧
    (f.adicity ≤ 5 → ∀ a, arity = some a → a < f.adicity → f.ecClanFactions arity = .error .argTooSmall) := by
  obtain ⟨h1, h2⟩ := C96_errors 0 f hc arity false
  unfold Boolf.ecClanFactions
  exact ⟨fun h => by rw [h1 h]; rfl, fun h a ha hlt => by rw [h2 h a ha hlt]; rfl⟩

end Verif.BF
