import Verif.Boolf.Props55

/-!
# C105: clans divided into factions and families
-/

namespace Verif.BF
open Verif.Py Verif.BV Verif.P Verif.W Verif.SP
open Verif.A hiding Mat

/-! ## what the results are -/

/-- A dictionary of the equivalence classes of a set of functions, which are given by their Zhegalkin indices.  The keys are the least indices of the classes. -/
structure Classes (member : Boolf → Prop) (rel : Boolf → Boolf → Prop) (reps : List Nat) (D : Dict Nat (List Nat)) : Prop where
  keys : D.keys = reps
  ascReps : reps.Pairwise (· < ·)
  asc : ∀ e ∈ D, e.2.Pairwise (· < ·)
  least : ∀ e ∈ D, e.2.head? = some e.1
  index : ∀ e ∈ D, ∀ z ∈ e.2, ∃ g, Reach g ∧ g.zhe = .ok z
  all : ∀ g z, Reach g → g.zhe = .ok z → ((∃ e ∈ D, z ∈ e.2) ↔ member g)
  same : ∀ e ∈ D, ∀ g h y z, Reach g → Reach h → member h → g.zhe = .ok y → h.zhe = .ok z → y ∈ e.2 → (z ∈ e.2 ↔ rel g h)

/-- The dictionary with the intersections of the classes in two dictionaries: the keys are all pairs of keys, in lexicographic order. -/
structure Intersections (P Q : Dict Nat (List Nat)) (X : Dict (Nat × Nat) (List Nat)) : Prop where
  keys : X.keys = P.keys ×ˢ Q.keys
  part : ∀ a A b B, (a, A) ∈ P → (b, B) ∈ Q → ∃ L, X.get? (a, b) = some L ∧ L.Pairwise (· < ·) ∧ ∀ z, z ∈ L ↔ z ∈ A ∧ z ∈ B

/-! ## the dictionaries -/

theorem Tuples.perm {S : List Boolf} {rel : Boolf → Boolf → Prop} {T T' : List (List Boolf)} (h : Tuples S rel T) (hp : T'.Perm T) : Tuples S rel T' where
  cls t ht := h.cls t (hp.mem_iff.1 ht)
  nodup t ht := h.nodup t (hp.mem_iff.1 ht)
  sort t ht := h.sort t (hp.mem_iff.1 ht)
  disj := by
    refine (hp.pairwise_iff ?_).2 h.disj
    intro t t' h1 x hx hx'
    exact h1 x hx' hx

theorem Tuples.ne_nil {S : List Boolf} {rel : Boolf → Boolf → Prop} {T : List (List Boolf)} (h : Tuples S rel T) (heq : EquivOn S rel) : ∀ t ∈ T, t ≠ [] := by
  intro t ht hc
  obtain ⟨g, hg, h1⟩ := h.cls t ht
  have := (h1 g).2 ⟨hg, heq.refl g hg⟩
  rw [hc] at this
  cases this

theorem Tuples.keys {S : List Boolf} {rel : Boolf → Boolf → Prop} {T : List (List Boolf)} (h : Tuples S rel T) (heq : EquivOn S rel) (hr : ∀ g ∈ S, Reach g) :
    (T.map fun t => (classEntry t).1).Nodup := by
  have hne := h.ne_nil heq
  have hre := h.reach hr
  refine List.Pairwise.map _ (R := fun t t' => (classEntry t).1 ≠ (classEntry t').1) (fun _ _ h => h) ?_
  refine h.disj.imp_of_mem ?_
  intro t t' ht ht' hd he
  obtain ⟨x, hx, ex⟩ := List.mem_map.1 (classEntry_mem (hne t ht))
  obtain ⟨y, hy, ey⟩ := List.mem_map.1 (classEntry_mem (hne t' ht'))
  have : x = y := zhe'_inj (hre t ht x hx) (hre t' ht' y hy) (by rw [ex, ey, he])
  exact hd x hx (this ▸ hy)

theorem sorted_head {l : List Nat} (h : l ≠ []) : (sorted l).head? = some ((sorted l).headD 0) := by
  cases hl : sorted l with
  | nil => exact absurd (List.Perm.nil_eq (hl ▸ sorted_perm l)).symm h
  | cons a l => rfl

theorem classes_of_tuples {S : List Boolf} {member : Boolf → Prop} {rel : Boolf → Boolf → Prop} {T : List (List Boolf)} (hS : ∀ g, g ∈ S ↔ Reach g ∧ member g)
    (hT : Tuples S rel T) (heq : EquivOn S rel) (hcov : ∀ g ∈ S, g ∈ T.flatten) :
    ∃ sets D, minToSet T [] = .ok sets ∧ sets.keys.Nodup ∧ sortedSets sets (sorted sets.keys) [] = .ok D ∧ Classes member rel (sorted sets.keys) D ∧
      ∀ k l, (k, l) ∈ D → ∃ s, sets.get? k = some s ∧ s.Nodup ∧ l = sorted s := by
  have hr : ∀ g ∈ S, Reach g := fun g hg => ((hS g).1 hg).1
  have hre := hT.reach hr
  have hne := hT.ne_nil heq
  have hk := hT.keys heq hr
  have hkeys : Dict.keys (T.map classEntry) = T.map fun t => (classEntry t).1 := by simp [Dict.keys, List.map_map, Function.comp_def]
  have hkn : (Dict.keys (T.map classEntry)).Nodup := by rw [hkeys]; exact hk
  have hget : ∀ t ∈ T, Dict.get? (T.map classEntry) (classEntry t).1 = some (t.map zhe') := fun t ht =>
    Dict.mem_get? hkn (List.mem_map.2 ⟨t, ht, rfl⟩)
  refine ⟨T.map classEntry, _, ?_, hkn, sortedSets_spec _ _ [] (fun k hk => mem_sorted.1 hk) ?_, ?_, ?_⟩
  · rw [minToSet_spec T [] hre hT.nodup hne (by simpa [Dict.keys] using hk), List.nil_append]
  · simpa [Dict.keys] using (sorted_perm _).nodup_iff.2 hkn
  · -- the entries
    have hent : ∀ e : Nat × List Nat, e ∈ ([] ++ (sorted (Dict.keys (T.map classEntry))).map fun k => (k, sorted ((Dict.get? (T.map classEntry) k).getD []))) ↔
        ∃ t ∈ T, e = ((classEntry t).1, sorted (t.map zhe')) := by
      intro e
      rw [List.nil_append, List.mem_map]
      constructor
      · rintro ⟨k, hk, rfl⟩
        rw [mem_sorted, hkeys, List.mem_map] at hk
        obtain ⟨t, ht, rfl⟩ := hk
        exact ⟨t, ht, by rw [hget t ht]; rfl⟩
      · rintro ⟨t, ht, rfl⟩
        exact ⟨(classEntry t).1, by rw [mem_sorted, hkeys]; exact List.mem_map.2 ⟨t, ht, rfl⟩, by rw [hget t ht]; rfl⟩
    have hmem : ∀ t ∈ T, ∀ g z, Reach g → g.zhe = .ok z → (z ∈ sorted (t.map zhe') ↔ g ∈ t) := by
      intro t ht g z hg hz
      rw [mem_sorted, List.mem_map]
      rw [zhe'_spec hg] at hz
      cases hz
      exact ⟨fun ⟨x, hx, he⟩ => zhe'_inj (hre t ht x hx) hg he ▸ hx, fun h => ⟨g, h, rfl⟩⟩
    constructor
    · simp [Dict.keys, List.map_map, Function.comp_def]
    · exact sorted_pairwise_lt hkn
    · intro e he
      obtain ⟨t, ht, rfl⟩ := (hent e).1 he
      exact sorted_pairwise_lt (map_zhe'_nodup (hre t ht) (hT.nodup t ht))
    · intro e he
      obtain ⟨t, ht, rfl⟩ := (hent e).1 he
      exact sorted_head (by simpa using hne t ht)
    · intro e he z hz
      obtain ⟨t, ht, rfl⟩ := (hent e).1 he
      obtain ⟨g, hg, rfl⟩ := List.mem_map.1 (mem_sorted.1 hz)
      exact ⟨g, hre t ht g hg, zhe'_spec (hre t ht g hg)⟩
    · intro g z hg hz
      constructor
      · rintro ⟨e, he, hze⟩
        obtain ⟨t, ht, rfl⟩ := (hent e).1 he
        obtain ⟨_, _, h2⟩ := hT.cls t ht
        exact ((hS g).1 ((h2 g).1 ((hmem t ht g z hg hz).1 hze)).1).2
      · intro hm
        obtain ⟨t, ht, hgt⟩ := List.mem_flatten.1 (hcov g ((hS g).2 ⟨hg, hm⟩))
        exact ⟨_, (hent _).2 ⟨t, ht, rfl⟩, (hmem t ht g z hg hz).2 hgt⟩
    · intro e he g h y z hg hh hm hy hz hye
      obtain ⟨t, ht, rfl⟩ := (hent e).1 he
      obtain ⟨c, hc, h2⟩ := hT.cls t ht
      obtain ⟨g1, g2⟩ := (h2 g).1 ((hmem t ht g y hg hy).1 hye)
      have hhS := (hS h).2 ⟨hh, hm⟩
      rw [hmem t ht h z hh hz, h2]
      exact ⟨fun ⟨_, k⟩ => heq.trans g g1 c hc h hhS (heq.symm c hc g g1 g2) k, fun k => ⟨hhS, heq.trans c hc g g1 h hhS g2 k⟩⟩
  · intro k l he
    rw [List.nil_append] at he
    obtain ⟨k', hk', e⟩ := List.mem_map.1 he
    cases e
    rw [mem_sorted, hkeys, List.mem_map] at hk'
    obtain ⟨t, ht, rfl⟩ := hk'
    exact ⟨_, hget t ht, map_zhe'_nodup (hre t ht) (hT.nodup t ht), by rw [hget t ht]; rfl⟩

theorem mem_product {p q : List Nat} {k : Nat × Nat} : k ∈ p ×ˢ q ↔ k.1 ∈ p ∧ k.2 ∈ q := List.mem_product

theorem intersections {p q P Q : Dict Nat (List Nat)} (hp : p.keys.Nodup) (hq : q.keys.Nodup) (hP : P.keys = sorted p.keys) (hQ : Q.keys = sorted q.keys)
    (h1 : ∀ k l, (k, l) ∈ P → ∃ s, p.get? k = some s ∧ s.Nodup ∧ l = sorted s) (h2 : ∀ k l, (k, l) ∈ Q → ∃ s, q.get? k = some s ∧ s.Nodup ∧ l = sorted s) :
    ∃ X, crossLoop p q (sorted p.keys ×ˢ sorted q.keys) [] = .ok X ∧ Intersections P Q X := by
  have hn : (sorted p.keys ×ˢ sorted q.keys).Nodup := ((sorted_perm _).nodup_iff.2 hp).product ((sorted_perm _).nodup_iff.2 hq)
  refine ⟨_, crossLoop_spec p q _ [] (fun k hk => ?_) (by simpa [Dict.keys] using hn), ?_⟩
  · rw [mem_product, mem_sorted, mem_sorted] at hk
    exact hk
  · rw [List.nil_append]
    have hkeys : Dict.keys ((sorted p.keys ×ˢ sorted q.keys).map fun k => (k, sorted (((p.get? k.1).getD []).filter fun z => ((q.get? k.2).getD []).contains z))) =
        sorted p.keys ×ˢ sorted q.keys := by
      simp [Dict.keys, List.map_map, Function.comp_def]
    refine ⟨by rw [hkeys, hP, hQ], fun a A b B hA hB => ?_⟩
    obtain ⟨s, s1, s2, rfl⟩ := h1 a A hA
    obtain ⟨t, t1, _, rfl⟩ := h2 b B hB
    refine ⟨sorted (s.filter fun z => t.contains z), ?_, sorted_pairwise_lt (s2.filter _), fun z => by simp [mem_sorted]⟩
    apply Dict.mem_get? (by rw [hkeys]; exact hn)
    refine List.mem_map.2 ⟨(a, b), ?_, by simp [s1, t1]⟩
    rw [mem_product, mem_sorted, mem_sorted]
    exact ⟨Dict.mem_keys_iff.2 ⟨_, s1⟩, Dict.mem_keys_iff.2 ⟨_, t1⟩⟩

/-- The dictionary of the classes is determined. -/
theorem Classes.unique {member : Boolf → Prop} {rel : Boolf → Boolf → Prop} {reps reps' : List Nat} {D D' : Dict Nat (List Nat)} (h : Classes member rel reps D)
    (h' : Classes member rel reps' D') : D = D' := by
  have key : ∀ {reps reps' : List Nat} {D D' : Dict Nat (List Nat)}, Classes member rel reps D → Classes member rel reps' D' → ∀ e ∈ D, e ∈ D' := by
    intro reps reps' D D' h h' e he
    have hhead : e.1 ∈ e.2 := List.mem_of_mem_head? (h.least e he)
    obtain ⟨g, g1, g2⟩ := h.index e he e.1 hhead
    obtain ⟨e', he', hge'⟩ := (h'.all g e.1 g1 g2).2 ((h.all g e.1 g1 g2).1 ⟨e, he, hhead⟩)
    have : e.2 = e'.2 := by
      apply eq_of_mem_iff_of_lt (h.asc e he) (h'.asc e' he')
      intro z
      constructor
      · intro hz
        obtain ⟨k, k1, k2⟩ := h.index e he z hz
        have hm := (h.all k z k1 k2).1 ⟨e, he, hz⟩
        exact (h'.same e' he' g k e.1 z g1 k1 hm g2 k2 hge').2 ((h.same e he g k e.1 z g1 k1 hm g2 k2 hhead).1 hz)
      · intro hz
        obtain ⟨k, k1, k2⟩ := h'.index e' he' z hz
        have hm := (h'.all k z k1 k2).1 ⟨e', he', hz⟩
        exact (h.same e he g k e.1 z g1 k1 hm g2 k2 hhead).2 ((h'.same e' he' g k e.1 z g1 k1 hm g2 k2 hge').1 hz)
    have h1 := h.least e he
    rw [this, h'.least e' he'] at h1
    have : e = e' := Prod.ext (Option.some.inj h1).symm this
    exact this ▸ he'
  have hasc : ∀ {reps : List Nat} {D : Dict Nat (List Nat)}, Classes member rel reps D → D.Pairwise fun e e' => e.1 < e'.1 := by
    intro reps D h
    have := h.ascReps
    rw [← h.keys] at this
    exact List.pairwise_map.1 this
  have hn : D.Nodup := (hasc h).imp fun h he => by rw [he] at h; exact lt_irrefl _ h
  have hn' : D'.Nodup := (hasc h').imp fun h he => by rw [he] at h; exact lt_irrefl _ h
  exact List.Perm.eq_of_pairwise (fun _ _ _ _ h h' => absurd h (not_lt_of_gt h')) (hasc h) (hasc h')
    ((List.perm_ext_iff_of_nodup hn hn').2 fun e => ⟨key h h' e, key h' h e⟩)

theorem Intersections.unique {P Q : Dict Nat (List Nat)} {X X' : Dict (Nat × Nat) (List Nat)} (h : Intersections P Q X) (h' : Intersections P Q X')
    (hn : (P.keys ×ˢ Q.keys).Nodup) : X = X' := by
  have hget : ∀ k ∈ P.keys ×ˢ Q.keys, X.get? k = X'.get? k := by
    intro k hk
    obtain ⟨k1, k2⟩ := mem_product.1 hk
    obtain ⟨⟨a, A⟩, hA, e1⟩ := List.mem_map.1 k1
    obtain ⟨⟨b, B⟩, hB, e2⟩ := List.mem_map.1 k2
    obtain ⟨L, l1, l2, l3⟩ := h.part a A b B hA hB
    obtain ⟨L', m1, m2, m3⟩ := h'.part a A b B hA hB
    have : k = (a, b) := Prod.ext e1.symm e2.symm
    rw [this, l1, m1, eq_of_mem_iff_of_lt l2 m2 fun z => by rw [l3, m3]]
  have hform : ∀ Y : Dict (Nat × Nat) (List Nat), Y.keys.Nodup → Y = Y.keys.map fun k => (k, (Y.get? k).getD []) := by
    intro Y hY
    unfold Dict.keys
    rw [List.map_map]
    conv_lhs => rw [← List.map_id Y]
    refine List.map_congr_left fun e he => ?_
    simp only [Function.comp, id]
    rw [Dict.mem_get? hY (show (e.1, e.2) ∈ Y from he)]
    rfl
  rw [hform X (by rw [h.keys]; exact hn), hform X' (by rw [h'.keys]; exact hn), h.keys, h'.keys]
  exact List.map_congr_left fun k hk => by rw [hget k hk]

/-! ## the classes of the members of the clan of a root function -/

theorem faction_ec {g : Boolf} (hg : Reach g) (ha : g.isConstant = true ∨ g.adicity ≤ 5) :
    ∃ E, g.ecFaction none false = .ok E ∧ (E.part.blockLabels.map Prod.snd).Nodup ∧ ∀ h, h ∈ E.part.blockLabels.map Prod.snd ↔ Reach h ∧ Renamed g.adicity g h := by
  by_cases hc : g.isConstant = true
  · obtain ⟨E, h1, _, _, h3⟩ := (C95_constant g hc none false).2 (.inl rfl)
    refine ⟨E, h1, h3.nodup, fun h => ?_⟩
    rw [h3.labels]
    constructor
    · rintro ⟨_, _, rfl⟩
      exact ⟨hg, id, fun x hx => hg.canon.toSound.adic_lt hx, fun _ _ _ _ h => h, fun key key' hk => by
        rw [getItem_eq hg.canon.toSound, getItem_eq hg.canon.toSound]
        exact congrArg Except.ok (Boolf.eval_congr fun x hx => (hk x hx).symm)⟩
    · rintro ⟨hh, hr⟩
      obtain ⟨_, _, h2⟩ := hr.replaced hg hh
      exact ⟨0, by omega, (h2.constant hg.canon hh.canon hc).symm⟩
  · have hc' : g.isConstant = false := by simpa using hc
    have hp : g.Places none g.adicity := .inl ⟨rfl, rfl⟩
    have ha' := ha.resolve_left hc
    obtain ⟨E, hE, hnd⟩ : ∃ E, g.ecFaction none false = .ok E ∧ (E.part.blockLabels.map Prod.snd).Nodup := by
      by_cases h : g.adicity = g.valency
      · obtain ⟨E, _, h1, _, _, h3, _⟩ := C95_short g hg.obj hc' ha' none false _ hp (.inl h)
        exact ⟨E, h1, h3.nodup⟩
      · obtain ⟨E, _, _, h1, _, _, _, _, _, h3, _⟩ := C95_long g hg.obj hc' ha' none _ hp h
        exact ⟨E, h1, h3.nodup⟩
    exact ⟨E, hE, hnd, C95_members g hg hc' none false _ hp E hE⟩

theorem clan_ec {g : Boolf} (hg : Reach g) (ha : g.isConstant = true ∨ g.adicity ≤ 5) :
    ∃ E, g.ecClan 1 none false = .ok E ∧ (E.part.blockLabels.map Prod.snd).Nodup ∧ ∀ h, h ∈ E.part.blockLabels.map Prod.snd ↔ Reach h ∧ SignedRenamed g.adicity g h := by
  by_cases hc : g.isConstant = true
  · obtain ⟨E, h1, _, _, h3⟩ := C96_constant 0 g hc none
    refine ⟨E, h1, h3.nodup, fun h => ?_⟩
    rw [h3.labels]
    constructor
    · rintro ⟨_, _, rfl⟩
      exact ⟨hg, id, fun _ => false, fun x hx => hg.canon.toSound.adic_lt hx, fun _ _ _ _ h => h, fun key key' hk => by
        rw [getItem_eq hg.canon.toSound, getItem_eq hg.canon.toSound]
        exact congrArg Except.ok (Boolf.eval_congr fun x hx => by rw [hk x hx, Bool.xor_false]; rfl)⟩
    · rintro ⟨hh, hr⟩
      obtain ⟨_, _, _, h2⟩ := hr.replaced hg hh
      exact ⟨0, by omega, (h2.constant hg.canon hh.canon hc).symm⟩
  · have hc' : g.isConstant = false := by simpa using hc
    have hp : g.Places none g.adicity := .inl ⟨rfl, rfl⟩
    have ha' := ha.resolve_left hc
    obtain ⟨E, hE, hnd⟩ : ∃ E, g.ecClan 1 none false = .ok E ∧ (E.part.blockLabels.map Prod.snd).Nodup := by
      by_cases h : g.adicity = g.valency
      · obtain ⟨E, _, h1, _, _, h3, _⟩ := C96_redundant g hg.obj hc' ha' none false _ hp (.inl h)
        exact ⟨E, h1 0, h3.nodup⟩
      · obtain ⟨E, _, _, h1, _, _, _, _, _, h3, _⟩ := C96_abbreviated g hg.obj hc' ha' none _ hp h
        exact ⟨E, h1 0, h3.nodup⟩
    exact ⟨E, hE, hnd, C96_members 1 g hg hc' none false _ hp E hE⟩

theorem family_ec {g : Boolf} (hg : Reach g) (ha : g.isConstant = true ∨ g.adicity ≤ 5) :
    ∃ E, g.ecFamily = .ok E ∧ (E.part.blockLabels.map Prod.snd).Nodup ∧ ∀ h, h ∈ E.part.blockLabels.map Prod.snd ↔ Reach h ∧ Negated g h := by
  obtain ⟨E, hE, hnd⟩ : ∃ E, g.ecFamily = .ok E ∧ (E.part.blockLabels.map Prod.snd).Nodup := by
    by_cases hc : g.isConstant = true
    · obtain ⟨E, h1, _, h3⟩ := (C94_family g hg.obj).1 hc
      exact ⟨E, h1, h3.nodup⟩
    · obtain ⟨E, _, h1, _, h3, _⟩ := (C94_family g hg.obj).2.1 (by simpa using hc) (le_trans (ha.resolve_left hc) (by omega))
      exact ⟨E, h1, h3.nodup⟩
  exact ⟨E, hE, hnd, C94_members g hg E hE⟩

theorem Negated.signed {f g : Boolf} (hf : Reach f) (hg : Reach g) (h : Negated f g) : SignedRenamed f.adicity f g := by
  obtain ⟨s, h1⟩ := h.replaced hf hg
  exact h1.signed hf hg fun x hx => hf.canon.toSound.adic_lt hx

theorem Renamed.refl {f : Boolf} (hf : Reach f) : Renamed f.adicity f f :=
  ⟨id, fun _ hx => hf.canon.toSound.adic_lt hx, fun _ _ _ _ h => h, fun key key' hk => by
    rw [getItem_eq hf.canon.toSound, getItem_eq hf.canon.toSound]
    exact congrArg Except.ok (Boolf.eval_congr fun x hx => (hk x hx).symm)⟩

/-- The members of the clan of a root function have its adicity. -/
theorem clan_adicity {f g : Boolf} (hf : Reach f) (hg : Reach g) (hroot : f.isRoot = true) (h : SignedRenamed f.adicity f g) : g.adicity = f.adicity := by
  apply le_antisymm (h.adicity hf hg)
  have hlen : f.atomvals.length = f.adicity := by
    apply le_antisymm (length_le_adicity hf.canon)
    have := (isRoot_iff hf.canon.toSound).1 hroot
    rw [hf.canon.adic]
    intro x hx
    have hl := congrArg List.length this
    rw [List.length_range] at hl
    rw [this, List.mem_range, ← hl] at hx
    exact hx
  obtain ⟨_, _, _, h1⟩ := (h.symm hf hg).replaced hg hf
  rw [← hlen]
  exact (h1.length hg.canon hf.canon).trans (length_le_adicity hg.canon)

/-- the functions with given indices -/
theorem length_filter_zhe {S : List Boolf} (hS : S.Nodup) (hr : ∀ g ∈ S, Reach g) {L : List Nat} (hL : L.Nodup) (h : ∀ z ∈ L, ∃ g ∈ S, zhe' g = z) :
    (S.filter fun g => L.contains (zhe' g)).length = L.length := by
  rw [← List.length_map zhe']
  apply List.Perm.length_eq
  apply (List.perm_ext_iff_of_nodup (map_zhe'_nodup (fun g hg => hr g (List.mem_filter.1 hg).1) (hS.filter _)) hL).2
  intro z
  simp only [List.mem_map, List.mem_filter, List.contains_iff_mem]
  constructor
  · rintro ⟨g, ⟨_, h1⟩, rfl⟩
    exact h1
  · intro hz
    obtain ⟨g, hg, rfl⟩ := h z hz
    exact ⟨g, ⟨hg, hz⟩, rfl⟩

/-- **C105.** For a root function with at most five arguments (or a constant) `ec_clan_partitioned` gives the clan divided into factions and families.  Two functions
of the clan are in the same faction, if one becomes the other by a renaming of the arguments, and in the same family, if one becomes the other by negating arguments.
The representatives are the least Zhegalkin indices of the classes, in ascending order, and the classes are ascending lists of Zhegalkin indices.
Splinters are the intersections of factions and families.  None is empty, and those of the same faction have the same length. -/
theorem C105_clan_partitioned (f : Boolf) (hf : Reach f) (hroot : f.isRoot = true) (ha : f.isConstant = true ∨ f.adicity ≤ 5) (order : List Boolf → List Boolf)
    (orderPerm orderNeg : List (List Boolf) → List (List Boolf)) (ho : ∀ l, (order l).Perm l) (hop : ∀ l, (orderPerm l).Perm l) (hon : ∀ l, (orderNeg l).Perm l) :
    ∃ R, f.ecClanPartitioned order orderPerm orderNeg = .ok R ∧
      Classes (SignedRenamed f.adicity f) (Renamed f.adicity) R.factionReps R.factionDict ∧
      Classes (SignedRenamed f.adicity f) Negated R.familyReps R.familyDict ∧
      Intersections R.factionDict R.familyDict R.splinterDict ∧
      (∀ a b L, R.splinterDict.get? (a, b) = some L → L ≠ []) ∧
      (∀ a b b' L L', R.splinterDict.get? (a, b) = some L → R.splinterDict.get? (a, b') = some L' → L.length = L'.length) := by
  obtain ⟨E, hE, hnd, hmem⟩ := clan_ec hf ha
  set S := E.part.blockLabels.map Prod.snd with hSdef
  set n := f.adicity with hn
  have hr : ∀ g ∈ S, Reach g := fun g hg => ((hmem g).1 hg).1
  have had : ∀ g ∈ S, g.adicity = n := fun g hg => clan_adicity hf (hr g hg) hroot ((hmem g).1 hg).2
  have hcon : ∀ g ∈ S, g.isConstant = true ∨ g.adicity ≤ 5 := by
    intro g hg
    rcases ha with hc | h5
    · obtain ⟨_, _, _, h2⟩ := ((hmem g).1 hg).2.replaced hf (hr g hg)
      rw [h2.constant hf.canon (hr g hg).canon hc]
      exact .inl hc
    · exact .inr (by rw [had g hg]; exact h5)
  have hclosed : ∀ g ∈ S, ∀ h, Reach h → SignedRenamed n g h → h ∈ S := fun g hg h hh hm =>
    (hmem h).2 ⟨hh, ((hmem g).1 hg).2.trans hf (hr g hg) hh hm⟩
  have heqR : EquivOn S (Renamed n) := by
    refine ⟨fun g hg => ?_, fun g hg h hh hm => ?_, fun g hg h hh k hk h1 h2 => h1.trans (hr g hg) (hr h hh) (hr k hk) h2⟩
    · have := Renamed.refl (hr g hg)
      rwa [had g hg] at this
    · have := hm.symm (hr g hg) (hr h hh)
      rwa [had g hg] at this
  have heqN : EquivOn S Negated :=
    ⟨fun g _ => ⟨0, fun key => by simp⟩, fun g _ h _ hm => hm.symm, fun g _ h _ k _ h1 h2 => h1.trans h2⟩
  have hset : setOfBoolfs S = S := setOfBoolfs_nodup S hr hnd
  obtain ⟨TP, p1, p2, p3⟩ := tuplesLoop_spec (S := S) (rel := Renamed n) (ec := fun g => g.ecFaction none false) hr heqR (fun g hg => by
    obtain ⟨E', e1, e2, e3⟩ := faction_ec (hr g hg) (hcon g hg)
    rw [had g hg] at e3
    refine ⟨E', e1, e2, fun h => ?_⟩
    rw [e3]
    exact ⟨fun ⟨hh, hm⟩ => ⟨hclosed g hg h hh hm.signed, hm⟩, fun ⟨hh, hm⟩ => ⟨hr h hh, hm⟩⟩) (order S) [] 0 (fun g hg => (ho S).mem_iff.1 hg)
    ⟨by simp, by simp, by simp, by simp⟩ (by simp) (fun g hg => .inl ((ho S).mem_iff.2 hg))
  obtain ⟨TN, q1, q2, q3⟩ := tuplesLoop_spec (S := S) (rel := Negated) (ec := fun g => g.ecFamily) hr heqN (fun g hg => by
    obtain ⟨E', e1, e2, e3⟩ := family_ec (hr g hg) (hcon g hg)
    refine ⟨E', e1, e2, fun h => ?_⟩
    rw [e3]
    exact ⟨fun ⟨hh, hm⟩ => ⟨hclosed g hg h hh (had g hg ▸ hm.signed (hr g hg) hh), hm⟩, fun ⟨hh, hm⟩ => ⟨hr h hh, hm⟩⟩) (order S) [] 0
    (fun g hg => (ho S).mem_iff.1 hg) ⟨by simp, by simp, by simp, by simp⟩ (by simp) (fun g hg => .inl ((ho S).mem_iff.2 hg))
  obtain ⟨sp, P, a1, a2, a3, a4, a5⟩ := classes_of_tuples hmem (p2.perm (hop TP)) heqR (fun g hg => (hop TP).flatten.mem_iff.2 (p3 g hg))
  obtain ⟨sn, Q, b1, b2, b3, b4, b5⟩ := classes_of_tuples hmem (q2.perm (hon TN)) heqN (fun g hg => (hon TN).flatten.mem_iff.2 (q3 g hg))
  obtain ⟨X, x1, x2⟩ := intersections a2 b2 a4.keys b4.keys a5 b5
  -- the intersections in terms of functions
  have hkey : ∀ a b L, X.get? (a, b) = some L → ∃ g ∈ S, ∃ h ∈ S, L.Nodup ∧ (∀ x, x ∈ S.filter (fun x => L.contains (zhe' x)) ↔ Reach x ∧ Renamed n g x ∧ Negated h x) ∧
      (∀ z ∈ L, ∃ x ∈ S, zhe' x = z) ∧ g.zhe = .ok a := by
    intro a b L hL
    have hk : (a, b) ∈ X.keys := Dict.mem_keys_iff.2 ⟨L, hL⟩
    rw [x2.keys, mem_product] at hk
    obtain ⟨⟨a', A⟩, hA, e1⟩ := List.mem_map.1 hk.1
    obtain ⟨⟨b', B⟩, hB, e2⟩ := List.mem_map.1 hk.2
    simp only at e1 e2
    subst e1 e2
    obtain ⟨L', l1, l2, l3⟩ := x2.part _ A _ B hA hB
    rw [hL] at l1
    cases l1
    have ha' : a' ∈ A := List.mem_of_mem_head? (a4.least _ hA)
    have hb' : b' ∈ B := List.mem_of_mem_head? (b4.least _ hB)
    obtain ⟨g, g1, g2⟩ := a4.index _ hA a' ha'
    obtain ⟨h, h1, h2⟩ := b4.index _ hB b' hb'
    have hgS : g ∈ S := (hmem g).2 ⟨g1, (a4.all g _ g1 g2).1 ⟨_, hA, ha'⟩⟩
    have hhS : h ∈ S := (hmem h).2 ⟨h1, (b4.all h _ h1 h2).1 ⟨_, hB, hb'⟩⟩
    refine ⟨g, hgS, h, hhS, l2.imp ne_of_lt, fun x => ?_, fun z hz => ?_, g2⟩
    · rw [List.mem_filter, List.contains_iff_mem, l3]
      constructor
      · rintro ⟨hx, h3, h4⟩
        have hxr := hr x hx
        have hxm := ((hmem x).1 hx).2
        exact ⟨hxr, (a4.same _ hA g x _ _ g1 hxr hxm g2 (zhe'_spec hxr) ha').1 h3, (b4.same _ hB h x _ _ h1 hxr hxm h2 (zhe'_spec hxr) hb').1 h4⟩
      · rintro ⟨hxr, h3, h4⟩
        have hx := hclosed g hgS x hxr h3.signed
        have hxm := ((hmem x).1 hx).2
        exact ⟨hx, (a4.same _ hA g x _ _ g1 hxr hxm g2 (zhe'_spec hxr) ha').2 h3, (b4.same _ hB h x _ _ h1 hxr hxm h2 (zhe'_spec hxr) hb').2 h4⟩
    · obtain ⟨hzA, _⟩ := (l3 z).1 hz
      obtain ⟨x, y1, y2⟩ := a4.index _ hA z hzA
      refine ⟨x, (hmem x).2 ⟨y1, (a4.all x z y1 y2).1 ⟨_, hA, hzA⟩⟩, ?_⟩
      rw [zhe'_spec y1] at y2
      exact Except.ok.inj y2
  have hclan : ∀ g ∈ S, ∀ h ∈ S, SignedRenamed n g h := fun g hg h hh =>
    (((hmem g).1 hg).2.symm hf (hr g hg)).trans (hr g hg) hf (hr h hh) ((hmem h).1 hh).2
  refine ⟨⟨sorted sp.keys, sorted sn.keys, P, Q, X⟩, ?_, a4, b4, x2, ?_, ?_⟩
  · unfold Boolf.ecClanPartitioned
    rw [hE]
    simp only [bind, Except.bind, pure, Except.pure]
    rw [← hSdef, hset, p1]
    simp only
    rw [q1]
    simp only
    rw [a1]
    simp only
    rw [b1]
    simp only
    rw [x1]
    simp only
    rw [a3]
    simp only
    rw [b3]
  · intro a b L hL he
    obtain ⟨g, hg, h, hh, _, h2, _⟩ := hkey a b L hL
    obtain ⟨k, k1, k2, k3⟩ := faction_meets_family (hr g hg) (hr h hh) (hclan h hh g hg)
    have hkS : k ∈ S := hclosed h hh k k1 (had h hh ▸ k2.signed (hr h hh) k1)
    have := (h2 k).2 ⟨k1, heqR.symm k hkS g hg k3, k2⟩
    rw [he] at this
    simp at this
  · intro a b b' L L' hL hL'
    obtain ⟨g, hg, h, hh, h1, h2, h3, h4⟩ := hkey a b L hL
    obtain ⟨g', hg', h', hh', h1', h2', h3', h4'⟩ := hkey a b' L' hL'
    obtain rfl : g = g' := zhe_inj (hr g hg) (hr g' hg') h4 h4'
    rw [← length_filter_zhe hnd hr h1 h3, ← length_filter_zhe hnd hr h1' h3']
    exact le_antisymm (splinter_length (hr g hg) (hr h hh) (hr h' hh') (hclan h' hh' h hh) (hnd.filter _) h2 h2' (hclan h hh h' hh'))
      (splinter_length (hr g hg) (hr h' hh') (hr h hh) (hclan h hh h' hh') (hnd.filter _) h2' h2 (hclan h' hh' h hh))

/-- **C105.** The result does not depend on the orders in which python iterates over the sets. -/
theorem C105_order (f : Boolf) (hf : Reach f) (hroot : f.isRoot = true) (ha : f.isConstant = true ∨ f.adicity ≤ 5) (order order' : List Boolf → List Boolf)
    (orderPerm orderNeg orderPerm' orderNeg' : List (List Boolf) → List (List Boolf)) (ho : ∀ l, (order l).Perm l) (hop : ∀ l, (orderPerm l).Perm l)
    (hon : ∀ l, (orderNeg l).Perm l) (ho' : ∀ l, (order' l).Perm l) (hop' : ∀ l, (orderPerm' l).Perm l) (hon' : ∀ l, (orderNeg' l).Perm l) :
    f.ecClanPartitioned order orderPerm orderNeg = f.ecClanPartitioned order' orderPerm' orderNeg' := by
  obtain ⟨⟨p, q, P, Q, X⟩, r1, r2, r3, r4, _⟩ := C105_clan_partitioned f hf hroot ha order orderPerm orderNeg ho hop hon
  obtain ⟨⟨p', q', P', Q', X'⟩, s1, s2, s3, s4, _⟩ := C105_clan_partitioned f hf hroot ha order' orderPerm' orderNeg' ho' hop' hon'
  simp only at r2 r3 r4 s2 s3 s4
  obtain rfl := r2.unique s2
  obtain rfl := r3.unique s3
  obtain rfl : X = X' := r4.unique s4 (by
    rw [r2.keys, r3.keys]
    exact List.Nodup.product (r2.ascReps.imp ne_of_lt) (r3.ascReps.imp ne_of_lt))
  rw [r1, s1, ← r2.keys, ← r3.keys, ← s2.keys, ← s3.keys]

/-- The clan of the conjunction of two atoms: one family and three factions. -/
example : ∃ f, newTT (.str "0001".toList) = .ok f ∧ Reach f ∧ f.isRoot = true ∧ f.adicity ≤ 5 ∧
    f.ecClanPartitioned id id id = .ok ⟨[8, 10, 15], [8], [(8, [8]), (10, [10, 12]), (15, [15])], [(8, [8, 10, 12, 15])], [((8, 8), [8]), ((10, 8), [10, 12]), ((15, 8), [15])]⟩ := by
  obtain ⟨_, e1, e2⟩ := newTT_explicit "0001".toList [false, false, false, true] [0, 1] 2 (by decide) (by decide) (by decide) (by intro n; simp; omega) (by decide) (by decide)
  exact ⟨_, e1 (by decide), e2.reach, by decide, by decide, by decide +kernel⟩

/-- The clan of `x0 & (x1 | x2)`: six factions and three families. -/
example : ∃ f, newTT (.str "00010101".toList) = .ok f ∧ Reach f ∧ f.isRoot = true ∧ f.adicity ≤ 5 ∧
    f.ecClanPartitioned List.reverse List.reverse id = .ok ⟨[130, 138, 153, 168, 175, 238], [130, 132, 144],
      [(130, [130, 132, 144]), (138, [138, 140, 162, 176, 196, 208]), (153, [153, 165, 195]), (168, [168, 200, 224]), (175, [175, 187, 207, 221, 243, 245]), (238, [238, 250, 252])],
      [(130, [130, 138, 162, 168, 195, 207, 243, 252]), (132, [132, 140, 165, 175, 196, 200, 245, 250]), (144, [144, 153, 176, 187, 208, 221, 224, 238])],
      [((130, 130), [130]), ((130, 132), [132]), ((130, 144), [144]), ((138, 130), [138, 162]), ((138, 132), [140, 196]), ((138, 144), [176, 208]), ((153, 130), [195]),
        ((153, 132), [165]), ((153, 144), [153]), ((168, 130), [168]), ((168, 132), [200]), ((168, 144), [224]), ((175, 130), [207, 243]), ((175, 132), [175, 245]),
        ((175, 144), [187, 221]), ((238, 130), [252]), ((238, 132), [250]), ((238, 144), [238])]⟩ := by
  obtain ⟨_, e1, e2⟩ := newTT_explicit "00010101".toList [false, false, false, true, false, true, false, true] [0, 1, 2] 3 (by decide) (by decide) (by decide) (by intro n; simp; omega)
    (by decide) (by decide)
  exact ⟨_, e1 (by decide), e2.reach, by decide, by decide, by decide +kernel⟩

/-- **C105.** A function with more than five places is rejected. -/
theorem C105_errors (f : Boolf) (hc : f.isConstant = false) (ha : 5 < f.adicity) (order : List Boolf → List Boolf)
    (orderPerm orderNeg : List (List Boolf) → List (List Boolf)) : f.ecClanPartitioned order orderPerm orderNeg = .error .argNotFeasible := by
  unfold Boolf.ecClanPartitioned
  rw [(C96_errors 0 f hc none false).1 ha]
  rfl

/-- **C105.** For a function that is not a root function the result can depend on the order of the set: the factions of the atom `x1` are not all found, when `x0`
and its negation come first, because their factions (without `arity`) have only one place.  Then `~x1` (index 5) is in no faction, and a splinter is empty. -/
theorem C105_not_root : Reach (setUnary 1) ∧ (setUnary 1).isRoot = false ∧
    (setUnary 1).ecClanPartitioned id id id = .ok ⟨[2, 3], [2, 4], [(2, [2, 4]), (3, [3])], [(2, [2, 3]), (4, [4, 5])],
      [((2, 2), [2]), ((2, 4), [4]), ((3, 2), [3]), ((3, 4), [])]⟩ ∧
    (setUnary 1).ecClanPartitioned List.reverse id id = .ok ⟨[2, 3], [2, 4], [(2, [2, 4]), (3, [3, 5])], [(2, [2, 3]), (4, [4, 5])],
      [((2, 2), [2]), ((2, 4), [4]), ((3, 2), [3]), ((3, 4), [5])]⟩ :=
  ⟨(canon_unary 1).reach, by decide, by decide +kernel, by decide +kernel⟩

end Verif.BF
