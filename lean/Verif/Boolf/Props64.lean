import Verif.Boolf.Props63

/-!
# C113-C116: `ec_clan_matrix`
-/

namespace Verif.BF
open Verif.Py Verif.BV Verif.P Verif.W Verif.SP
open Verif.A hiding Mat

theorem needsReordering_spec {sizes : Dict Nat Nat} {size sym : Nat → Nat} (reps N : List Nat) (h : ∀ a ∈ reps, sizes.get? a = some (size a) ∧ symIntval a = .ok (sym a)) :
    ∃ N', needsReordering sizes reps N = .ok N' ∧ ∀ a, a ∈ N' ↔ a ∈ N ∨ a ∈ reps ∧ 1 < size a ∧ sym a ≠ 0 := by
  induction reps generalizing N with
  | nil => exact ⟨N, rfl, by simp⟩
  | cons a reps ih =>
    obtain ⟨h1, h2⟩ := h a (by simp)
    have hr : ∀ b ∈ reps, sizes.get? b = some (size b) ∧ symIntval b = .ok (sym b) := fun b hb => h b (by simp [hb])
    rw [needsReordering]
    simp only [bind, Except.bind, dictGet, h1, h2]
    by_cases hs : size a > 1
    · rw [if_pos hs]
      by_cases hy : sym a ≠ 0
      · rw [if_pos hy]
        obtain ⟨N', n1, n2⟩ := ih (if a ∈ N then N else N ++ [a]) hr
        refine ⟨N', n1, fun b => (n2 b).trans ?_⟩
        have : b ∈ (if a ∈ N then N else N ++ [a]) ↔ b ∈ N ∨ b = a := by
          split
          · exact ⟨.inl, fun h => h.elim id fun h => by rwa [h]⟩
          · simp
        rw [this]
        constructor
        · rintro ((h | rfl) | ⟨h3, h4⟩)
          · exact .inl h
          · exact .inr ⟨by simp, hs, hy⟩
          · exact .inr ⟨by simp [h3], h4⟩
        · rintro (h | ⟨h3, h4⟩)
          · exact .inl (.inl h)
          · rcases List.mem_cons.1 h3 with rfl | h3
            · exact .inl (.inr rfl)
            · exact .inr ⟨h3, h4⟩
      · rw [if_neg hy]
        obtain ⟨N', n1, n2⟩ := ih N hr
        refine ⟨N', n1, fun b => (n2 b).trans (or_congr_right ⟨fun ⟨h3, h4⟩ => ⟨by simp [h3], h4⟩, fun ⟨h3, h4⟩ => ?_⟩)⟩
        rcases List.mem_cons.1 h3 with rfl | h3
        · exact absurd h4.2 hy
        · exact ⟨h3, h4⟩
    · rw [if_neg hs]
      obtain ⟨N', n1, n2⟩ := ih N hr
      refine ⟨N', n1, fun b => (n2 b).trans (or_congr_right ⟨fun ⟨h3, h4⟩ => ⟨by simp [h3], h4⟩, fun ⟨h3, h4⟩ => ?_⟩)⟩
      rcases List.mem_cons.1 h3 with rfl | h3
      · exact absurd h4.1 hs
      · exact ⟨h3, h4⟩

theorem permsToFamilies_ok (d : Dict Nat (List Nat)) : permsToFamilies d = .ok () := by
  unfold permsToFamilies
  simp only [Dict.keys, Dict.values, List.length_map, if_true]

theorem symIntval_eq {g : Boolf} {z : Nat} (hg : Reach g) (hz : g.zhe = .ok z) {p : SetPart Unit} (hp : g.permSymmetryPartition = .ok p) :
    symIntval z = .ok p.intval.1 := by
  obtain ⟨g', g1, g2, g3, g4⟩ := C50_zhe_index z
  obtain rfl := g4 g hg hz
  unfold symIntval
  rw [g1]
  simp only [bind, Except.bind, hp]
  rfl

/-- all parts of the result -/
structure MatrixSpec (f : Boolf) (R : Partitioned) (M : ClanMatrix) (sym : Nat → Nat) : Prop where
  factionReps : M.factionReps = R.factionReps
  familyReps : M.familyReps = R.familyReps
  factionDict : M.factionDict = R.factionDict
  familyDict : M.familyDict = R.familyDict
  triples : ListsOf tripleLt (fun z t => ∃ g, Reach g ∧ g.zhe = .ok z ∧ Turns f g t.1 t.2.1 t.2.2) M.zheTriples
  keynegs : ListsOf (· < ·) (fun z k => ∃ g p v, Reach g ∧ g.zhe = .ok z ∧ Turns f g k p v) M.zheKeynegs
  valnegs : ListsOf (· < ·) (fun z v => ∃ g k p, Reach g ∧ g.zhe = .ok z ∧ Turns f g k p v) M.zheValnegs
  factionKeynegs : ListsOf (· < ·) (fun a k => ∃ A z g p v, (a, A) ∈ M.factionDict ∧ z ∈ A ∧ Reach g ∧ g.zhe = .ok z ∧ Turns f g k p v) M.factionKeynegs
  familyPerms : ListsOf (· < ·) (fun b p => ∃ B z g k v, (b, B) ∈ M.familyDict ∧ z ∈ B ∧ Reach g ∧ g.zhe = .ok z ∧ Turns f g k p v) M.familyPerms
  weights : M.weights.keys = M.factionReps ∧ ∀ a A, (a, A) ∈ M.factionDict → ∃ w, M.weights.get? a = some (some w) ∧ ∀ z ∈ A, weightOf z = w
  sizes : M.sizes.keys = M.factionReps ∧ ∀ a b L, R.splinterDict.get? (a, b) = some L → M.sizes.get? a = some L.length
  lcm : 0 < M.lcm ∧ ∀ d, M.lcm ∣ d ↔ ∀ a s, M.sizes.get? a = some s → (s : Int) ∣ d
  symmetry : ∀ z g p, Reach g → SignedRenamed f.adicity f g → g.zhe = .ok z → g.permSymmetryPartition = .ok p → sym z = p.intval.1
  aligned : Aligned sym (fun a => ∃ s, M.sizes.get? a = some s ∧ 1 < s ∧ sym a ≠ 0) R.splinterDict M.splinterDict

theorem clan_matrix (f : Boolf) (hf : Reach f) (hroot : f.isRoot = true) (ha : f.isConstant = true ∨ f.adicity ≤ 5) (order : List Boolf → List Boolf)
    (orderPerm orderNeg : List (List Boolf) → List (List Boolf)) (ho : ∀ l, (order l).Perm l) (hop : ∀ l, (orderPerm l).Perm l) (hon : ∀ l, (orderNeg l).Perm l) :
    ∃ R M sym, f.ecClanPartitioned order orderPerm orderNeg = .ok R ∧ f.ecClanMatrix order orderPerm orderNeg = .ok M ∧ MatrixSpec f R M sym := by
  obtain ⟨R, hR, P, Q, X, Xne, Xlen⟩ := C105_clan_partitioned f hf hroot ha order orderPerm orderNeg ho hop hon
  have hlen : f.valency = f.adicity := by
    have h1 := (isRoot_iff hf.canon.toSound).1 hroot
    apply le_antisymm (by rw [hf.canon.val]; exact length_le_adicity hf.canon)
    rw [hf.canon.adic]
    intro x hx
    rw [h1] at hx
    exact List.mem_range.1 hx
  have hA : f.atomvals = List.range f.adicity := by rw [← hlen]; exact (isRoot_iff hf.canon.toSound).1 hroot
  obtain ⟨E, lab, κ, r, C⟩ := clan_data hf hlen ha
  have hmem : ∀ {g}, Reach g → (SignedRenamed f.adicity f g ↔ ∃ i < 2 ^ f.adicity * Nat.factorial f.adicity, lab i = g) := fun hg => C.member hf hA hg
  have hcon : ∀ g, Reach g → SignedRenamed f.adicity f g → g.isConstant = true ∨ g.valency ≤ 5 := by
    intro g hg hm
    rcases ha with hc | h5
    · obtain ⟨_, _, _, h2⟩ := hm.replaced hf hg
      rw [h2.constant hf.canon hg.canon hc]
      exact .inl hc
    · refine .inr (le_trans ?_ h5)
      rw [← clan_adicity hf hg hroot hm, hg.canon.val]
      exact length_le_adicity hg.canon
  -- the classes of a member
  have hXk : ∀ a b, (a, b) ∈ R.splinterDict.keys ↔ a ∈ R.factionReps ∧ b ∈ R.familyReps := by
    intro a b
    rw [X.keys, P.keys, Q.keys]
    exact List.mem_product
  have hentry : ∀ a, a ∈ R.factionReps → ∃ A, (a, A) ∈ R.factionDict := by
    intro a h
    rw [← P.keys] at h
    obtain ⟨v, hv⟩ := Dict.mem_keys_iff.1 h
    exact ⟨v, Dict.get?_mem hv⟩
  have hentry' : ∀ b, b ∈ R.familyReps → ∃ B, (b, B) ∈ R.familyDict := by
    intro b h
    rw [← Q.keys] at h
    obtain ⟨v, hv⟩ := Dict.mem_keys_iff.1 h
    exact ⟨v, Dict.get?_mem hv⟩
  have hrep : ∀ a A, (a, A) ∈ R.factionDict → a ∈ R.factionReps := fun a A h => by rw [← P.keys]; exact List.mem_map.2 ⟨_, h, rfl⟩
  have hrep' : ∀ b B, (b, B) ∈ R.familyDict → b ∈ R.familyReps := fun b B h => by rw [← Q.keys]; exact List.mem_map.2 ⟨_, h, rfl⟩
  have hXnd : R.splinterDict.keys.Nodup := by
    rw [X.keys]
    exact List.Nodup.product P.nodup Q.nodup
  have hX : ∀ a b L, R.splinterDict.get? (a, b) = some L → ∃ A B, (a, A) ∈ R.factionDict ∧ (b, B) ∈ R.familyDict ∧ L.Pairwise (· < ·) ∧ ∀ z, z ∈ L ↔ z ∈ A ∧ z ∈ B := by
    intro a b L hL
    obtain ⟨h1, h2⟩ := (hXk a b).1 (Dict.mem_keys_iff.2 ⟨L, hL⟩)
    obtain ⟨A, hA⟩ := hentry a h1
    obtain ⟨B, hB⟩ := hentry' b h2
    obtain ⟨L', l1, l2, l3⟩ := X.part a A b B hA hB
    rw [hL] at l1
    cases l1
    exact ⟨A, B, hA, hB, l2, l3⟩
  have hzm : ∀ a A z, (a, A) ∈ R.factionDict → z ∈ A → ∃ g, Reach g ∧ g.zhe = .ok z ∧ SignedRenamed f.adicity f g := by
    intro a A z h1 h2
    obtain ⟨g, g1, g2⟩ := P.index _ h1 z h2
    exact ⟨g, g1, g2, (P.all g z g1 g2).1 ⟨_, h1, h2⟩⟩
  have hcell : ∀ g z, Reach g → g.zhe = .ok z → SignedRenamed f.adicity f g → ∃ a A b B L, (a, A) ∈ R.factionDict ∧ z ∈ A ∧ (b, B) ∈ R.familyDict ∧ z ∈ B ∧
      ((a, b), L) ∈ R.splinterDict ∧ z ∈ L := by
    intro g z g1 g2 g3
    obtain ⟨⟨a, A⟩, h1, h2⟩ := (P.all g z g1 g2).2 g3
    obtain ⟨⟨b, B⟩, h3, h4⟩ := (Q.all g z g1 g2).2 g3
    obtain ⟨L, l1, _, l3⟩ := X.part a A b B h1 h3
    exact ⟨a, A, b, B, L, h1, h2, h3, h4, Dict.get?_mem l1, (l3 z).2 ⟨h2, h4⟩⟩
  have hcellM : ∀ a b L z, ((a, b), L) ∈ R.splinterDict → z ∈ L → ∃ A B, (a, A) ∈ R.factionDict ∧ z ∈ A ∧ (b, B) ∈ R.familyDict ∧ z ∈ B := by
    intro a b L z h1 h2
    obtain ⟨A, B, h3, h4, _, h6⟩ := hX a b L ((Dict.get?_iff_mem hXnd).2 h1)
    exact ⟨A, B, h3, ((h6 z).1 h2).1, h4, ((h6 z).1 h2).2⟩
  -- weights
  have hw : ∀ a A, (a, A) ∈ R.factionDict → A ≠ [] ∧ ∀ z ∈ A, weightOf z = weightOf a := by
    intro a A h1
    have haA : a ∈ A := P.mem_head h1
    refine ⟨List.ne_nil_of_mem haA, fun z hz => ?_⟩
    obtain ⟨g, g1, g2, g3⟩ := hzm a A z h1 hz
    obtain ⟨k, k1, k2, k3⟩ := hzm a A a h1 haA
    exact Renamed.weight g1 k1 (clan_adicity hf g1 hroot g3).le (clan_adicity hf k1 hroot k3).le ((P.same _ h1 g k z a g1 k1 k3 g2 k2 hz).1 haA) g2 k2
  have hW : rowWeights R.factionDict R.factionReps [] = .ok (R.factionReps.map fun a => (a, some (weightOf a))) := by
    rw [rowWeights_spec R.factionDict weightOf R.factionReps [] (show R.factionReps.Nodup from P.ascReps.imp ne_of_lt)]
    · rfl
    · intro a h
      obtain ⟨A, hA⟩ := hentry a h
      exact ⟨A, (Dict.get?_iff_mem P.nodup).2 hA, hw a A hA⟩
  -- index sets
  obtain ⟨S, hS, hSc⟩ := splintersLoop_spec (clan := E) (κ := κ) C.labels R.splinterDict (by rw [C.dims]; exact C.sigperm) (by
    rintro ⟨⟨a, b⟩, L⟩ he z hz
    obtain ⟨A, B, h1, h2, _⟩ := hcellM a b L z he hz
    obtain ⟨g, g1, g2, g3⟩ := hzm a A z h1 h2
    obtain ⟨i, hi, rfl⟩ := (hmem g1).1 g3
    exact ⟨i, hi, g2, g1⟩) Contains.empty
  have hSc := hSc.congr (E' := fun e => ∃ A B g, (e.faction, A) ∈ R.factionDict ∧ e.zhe ∈ A ∧ (e.family, B) ∈ R.familyDict ∧ e.zhe ∈ B ∧ Reach g ∧ g.zhe = .ok e.zhe ∧
      Turns f g e.keyneg e.perm e.valneg) (by
    intro e
    rw [false_or, C.dims]
    constructor
    · rintro ⟨a, b, L, h1, z, h2, i, h3, h4, h5, rfl⟩
      obtain ⟨A, B, h6, h7, h8, h9⟩ := hcellM a b L z h1 h2
      exact ⟨A, B, lab i, h6, h7, h8, h9, h5, h4, (C.turns i h3 _ h5).1 rfl⟩
    · rintro ⟨A, B, g, h1, h2, h3, h4, h5, h6, h7⟩
      obtain ⟨i, i1, i2, i3, i4, i5⟩ := C.turns_index h5 h7
      subst i2
      obtain ⟨L, l1, _, l3⟩ := X.part _ A _ B h1 h3
      refine ⟨e.faction, e.family, L, Dict.get?_mem l1, e.zhe, (l3 _).2 ⟨h2, h4⟩, i, i1, h6, h5, ?_⟩
      unfold eventOf
      rw [i3, i4, i5])
  have hturn : ∀ g, Reach g → ∀ k p v, Turns f g k p v → SignedRenamed f.adicity f g := by
    intro g hg k p v ht
    obtain ⟨i, i1, i2, _⟩ := C.turns_index hg ht
    exact (hmem hg).2 ⟨i, i1, i2⟩
  obtain ⟨F1, f1, f1'⟩ := dictOfLists_spec sorted_perm (fun l => sorted_asc) hSc.factionKeynegs
  obtain ⟨F2, f2, f2'⟩ := dictOfLists_spec sorted_perm (fun l => sorted_asc) hSc.familyPerms
  obtain ⟨F3, f3, f3'⟩ := dictOfLists_spec sorted_perm (fun l => sorted_asc) hSc.zheKeynegs
  obtain ⟨F4, f4, f4'⟩ := dictOfLists_spec sorted_perm (fun l => sorted_asc) hSc.zheValnegs
  obtain ⟨F5, f5, f5'⟩ := dictOfLists_spec (sort := sortedTriples) (fun l => List.perm_insertionSort _ _) (fun l => sortedTriples_asc) hSc.zheTriples
  have hcell' : ∀ g z k p v, Reach g → g.zhe = .ok z → Turns f g k p v → ∃ a A b B, (a, A) ∈ R.factionDict ∧ z ∈ A ∧ (b, B) ∈ R.familyDict ∧ z ∈ B := by
    intro g z k p v h1 h2 h3
    obtain ⟨a, A, b, B, _, h4, h5, h6, h7, _⟩ := hcell g z h1 h2 (hturn g h1 k p v h3)
    exact ⟨a, A, b, B, h4, h5, h6, h7⟩
  -- sizes
  obtain ⟨y, hy⟩ := zhe_exists hf
  obtain ⟨a₁, A₁, b₁, B₁, _, ha₁, _, hb₁, _⟩ := hcell f y hf hy ⟨id, fun _ => false, fun x hx => hf.canon.toSound.adic_lt hx, fun _ _ _ _ h => h, fun key key' hk => by
    rw [getItem_eq hf.canon.toSound, getItem_eq hf.canon.toSound]
    exact congrArg Except.ok (Boolf.eval_congr fun x hx => by rw [hk x hx, Bool.xor_false]; rfl)⟩
  have hbne : R.familyReps ≠ [] := List.ne_nil_of_mem (hrep' _ _ hb₁)
  obtain ⟨b₀, hb₀, hb₀m⟩ : ∃ b₀, pyMinNat R.familyReps = .ok b₀ ∧ b₀ ∈ R.familyReps := by
    refine ⟨_, pyMinNat_head hbne, ?_⟩
    cases hl : sorted R.familyReps with
    | nil =>
      have := mem_sorted.2 (hrep' _ _ hb₁)
      rw [hl] at this
      cases this
    | cons x l => exact mem_sorted.1 (by rw [hl]; simp)
  set size : Nat → Nat := fun a => ((R.splinterDict.get? (a, b₀)).getD []).length with hsize
  have hsz : ∀ a b L, R.splinterDict.get? (a, b) = some L → size a = L.length := by
    intro a b L hL
    obtain ⟨h1, _⟩ := (hXk a b).1 (Dict.mem_keys_iff.2 ⟨L, hL⟩)
    obtain ⟨L', hL'⟩ := Dict.mem_keys_iff.1 ((hXk a b₀).2 ⟨h1, hb₀m⟩)
    rw [hsize]
    simp only [hL']
    exact Xlen a b₀ b L' L hL' hL
  have hL0 : ∀ a ∈ R.factionReps, ∃ L, R.splinterDict.get? (a, b₀) = some L ∧ L.length = size a := by
    intro a h
    obtain ⟨L', hL'⟩ := Dict.mem_keys_iff.1 ((hXk a b₀).2 ⟨h, hb₀m⟩)
    exact ⟨L', hL', (hsz _ _ _ hL').symm⟩
  have hSz : splinterSizes R.splinterDict b₀ R.factionReps [] = .ok (R.factionReps.map fun a => (a, size a)) := by
    rw [splinterSizes_spec R.splinterDict b₀ size R.factionReps [] (show R.factionReps.Nodup from P.ascReps.imp ne_of_lt) hL0]
    rfl
  have hget : ∀ {β : Type} (v : Nat → β) a, a ∈ R.factionReps → Dict.get? (R.factionReps.map fun a => (a, v a)) a = some (v a) := by
    intro β v a h
    have hk : Dict.keys (R.factionReps.map fun a => (a, v a)) = R.factionReps := by
      unfold Dict.keys
      rw [List.map_map]
      exact (List.map_congr_left fun _ _ => rfl).trans (List.map_id _)
    rw [Dict.get?_iff_mem (by rw [hk]; exact P.ascReps.imp ne_of_lt)]
    exact List.mem_map.2 ⟨a, h, rfl⟩
  have hkeys : ∀ {β : Type} (v : Nat → β), Dict.keys (R.factionReps.map fun a => (a, v a)) = R.factionReps := by
    intro β v
    unfold Dict.keys
    rw [List.map_map]
    exact (List.map_congr_left fun _ _ => rfl).trans (List.map_id _)
  -- symmetries
  have hsym : ∀ z, ∃ y, ∀ g p, Reach g → SignedRenamed f.adicity f g → g.zhe = .ok z → g.permSymmetryPartition = .ok p → y = p.intval.1 := by
    intro z
    by_cases h : ∃ g p, Reach g ∧ g.zhe = .ok z ∧ g.permSymmetryPartition = .ok p
    · obtain ⟨g, p, h1, h2, h3⟩ := h
      refine ⟨p.intval.1, fun g' p' h1' _ h2' h3' => ?_⟩
      obtain rfl := zhe_inj h1 h1' h2 h2'
      rw [h3] at h3'
      cases h3'
      rfl
    · exact ⟨0, fun g p h1 _ h2 h3 => absurd ⟨g, p, h1, h2, h3⟩ h⟩
  choose sym hsym using hsym
  have hsymI : ∀ a A z, (a, A) ∈ R.factionDict → z ∈ A → symIntval z = .ok (sym z) := by
    intro a A z h1 h2
    obtain ⟨g, g1, g2, g3⟩ := hzm a A z h1 h2
    obtain ⟨p, p1, _⟩ := permSymmetryPartition_spec g1 (hcon g g1 g3)
    rw [symIntval_eq g1 g2 p1, hsym z g p g1 g3 g2 p1]
  obtain ⟨N, hN, hNm⟩ := needsReordering_spec (sizes := R.factionReps.map fun a => (a, size a)) (size := size) (sym := sym) R.factionReps [] (by
    intro a h
    obtain ⟨A, hA⟩ := hentry a h
    exact ⟨hget size a h, hsymI a A a hA (P.mem_head hA)⟩)
  have hNiff : ∀ a, a ∈ N ↔ ∃ s, Dict.get? (R.factionReps.map fun a => (a, size a)) a = some s ∧ 1 < s ∧ sym a ≠ 0 := by
    intro a
    rw [hNm]
    constructor
    · rintro (h | ⟨h1, h2, h3⟩)
      · cases h
      · exact ⟨size a, hget size a h1, h2, h3⟩
    · rintro ⟨s, h1, h2, h3⟩
      have hm : a ∈ R.factionReps := by
        rw [← hkeys size]
        exact Dict.mem_keys_iff.2 ⟨s, h1⟩
      rw [hget size a hm] at h1
      cases h1
      exact .inr ⟨hm, h2, h3⟩
  obtain ⟨D, hD, hDa⟩ := reorder_aligned (X := R.splinterDict) (needs := N) (reps := R.factionReps) (bs := R.familyReps) (s := sym) (Q.ascReps.imp ne_of_lt) (fun k => hXk k.1 k.2) (by
    rintro ⟨a, b⟩ L hL
    obtain ⟨A, B, h1, h2, h3, h4⟩ := hX a b L hL
    refine ⟨Xne a b L hL, h3, fun _ => mapM_ok fun z hz => ?_⟩
    exact hsymI a A z h1 ((h4 z).1 hz).1)
  -- lcm
  have hvals : Dict.values (R.factionReps.map fun a => (a, size a)) = R.factionReps.map size := by
    unfold Dict.values
    rw [List.map_map]
    rfl
  have hpos : ∀ a ∈ R.factionReps, 0 < size a := by
    intro a h
    obtain ⟨L, l1, l2⟩ := hL0 a h
    rw [← l2]
    exact List.length_pos_of_ne_nil (Xne _ _ _ l1)
  obtain ⟨m, m1, m2, m3⟩ := (C112_multi_lcm ((R.factionReps.map size).map Int.ofNat)).1 (by simpa using List.ne_nil_of_mem (hrep _ _ ha₁)) (by
    rw [List.count_eq_zero_of_not_mem]
    · omega
    · intro h0
      simp only [List.map_map, List.mem_map, Function.comp] at h0
      obtain ⟨a, h1, h2⟩ := h0
      have := hpos a h1
      simp only [Int.ofNat_eq_natCast] at h2
      omega)
  have hmpos : 0 < m := by
    apply Int.sign_eq_one_iff_pos.1
    rw [m3]
    apply Int.sign_eq_one_iff_pos.2
    apply List.prod_pos
    intro x hx
    simp only [List.map_map, List.mem_map, Function.comp] at hx
    obtain ⟨a, h1, rfl⟩ := hx
    have := hpos a h1
    simp only [Int.ofNat_eq_natCast]
    omega
  refine ⟨R, ⟨R.factionReps, R.familyReps, R.factionDict, R.familyDict, D, R.factionReps.map fun a => (a, size a), m, R.factionReps.map fun a => (a, some (weightOf a)), F1, F2, F3, F4, F5⟩,
    sym, hR, ?_, rfl, rfl, rfl, rfl, ?_, ?_, ?_, ?_, ?_, ?_, ?_, ?_, ?_, ?_⟩
  · unfold Boolf.ecClanMatrix
    rw [if_pos hroot]
    simp only [bind, Except.bind, pure, Except.pure]
    rw [C.ec]
    simp only [hR]
    rw [hW]
    simp only [hS, permsToFamilies_ok, hb₀]
    rw [hSz]
    simp only
    rw [hN]
    simp only [hD, f1, f2, f3, f4, f5]
    rw [hvals, m1]
  · refine f5'.congr fun z t => ⟨?_, ?_⟩
    · rintro ⟨e, ⟨A, B, g, h1, h2, h3, h4, h5, h6, h7⟩, rfl, rfl⟩
      exact ⟨g, h5, h6, h7⟩
    · rintro ⟨g, h1, h2, h3⟩
      obtain ⟨k, p, v⟩ := t
      obtain ⟨a, A, b, B, h4, h5, h6, h7⟩ := hcell' g z k p v h1 h2 h3
      exact ⟨⟨a, b, z, k, p, v⟩, ⟨A, B, g, h4, h5, h6, h7, h1, h2, h3⟩, rfl, rfl⟩
  · refine f3'.congr fun z k => ⟨?_, ?_⟩
    · rintro ⟨e, ⟨A, B, g, h1, h2, h3, h4, h5, h6, h7⟩, rfl, rfl⟩
      exact ⟨g, _, _, h5, h6, h7⟩
    · rintro ⟨g, p, v, h1, h2, h3⟩
      obtain ⟨a, A, b, B, h4, h5, h6, h7⟩ := hcell' g z k p v h1 h2 h3
      exact ⟨⟨a, b, z, k, p, v⟩, ⟨A, B, g, h4, h5, h6, h7, h1, h2, h3⟩, rfl, rfl⟩
  · refine f4'.congr fun z v => ⟨?_, ?_⟩
    · rintro ⟨e, ⟨A, B, g, h1, h2, h3, h4, h5, h6, h7⟩, rfl, rfl⟩
      exact ⟨g, _, _, h5, h6, h7⟩
    · rintro ⟨g, k, p, h1, h2, h3⟩
      obtain ⟨a, A, b, B, h4, h5, h6, h7⟩ := hcell' g z k p v h1 h2 h3
      exact ⟨⟨a, b, z, k, p, v⟩, ⟨A, B, g, h4, h5, h6, h7, h1, h2, h3⟩, rfl, rfl⟩
  · refine f1'.congr fun a k => ⟨?_, ?_⟩
    · rintro ⟨e, ⟨A, B, g, h1, h2, h3, h4, h5, h6, h7⟩, rfl, rfl⟩
      exact ⟨A, _, g, _, _, h1, h2, h5, h6, h7⟩
    · rintro ⟨A, z, g, p, v, h4, h5, h1, h2, h3⟩
      obtain ⟨_, _, b, B, _, _, h6, h7⟩ := hcell' g z k p v h1 h2 h3
      exact ⟨⟨a, b, z, k, p, v⟩, ⟨A, B, g, h4, h5, h6, h7, h1, h2, h3⟩, rfl, rfl⟩
  · refine f2'.congr fun b p => ⟨?_, ?_⟩
    · rintro ⟨e, ⟨A, B, g, h1, h2, h3, h4, h5, h6, h7⟩, rfl, rfl⟩
      exact ⟨B, _, g, _, _, h3, h4, h5, h6, h7⟩
    · rintro ⟨B, z, g, k, v, h6, h7, h1, h2, h3⟩
      obtain ⟨a, A, _, _, h4, h5, _, _⟩ := hcell' g z k p v h1 h2 h3
      exact ⟨⟨a, b, z, k, p, v⟩, ⟨A, B, g, h4, h5, h6, h7, h1, h2, h3⟩, rfl, rfl⟩
  · refine ⟨hkeys _, fun a A h => ⟨weightOf a, hget _ a (hrep a A h), (hw a A h).2⟩⟩
  · refine ⟨hkeys _, fun a b L hL => ?_⟩
    rw [hget size a ((hXk a b).1 (Dict.mem_keys_iff.2 ⟨L, hL⟩)).1, hsz a b L hL]
  · refine ⟨hmpos, fun d => (m2 d).trans ?_⟩
    simp only [List.map_map, List.mem_map, Function.comp]
    constructor
    · intro h a s hs
      have hm : a ∈ R.factionReps := by
        rw [← hkeys size]
        exact Dict.mem_keys_iff.2 ⟨s, hs⟩
      rw [hget size a hm] at hs
      cases hs
      exact h _ ⟨a, hm, rfl⟩
    · rintro h x ⟨a, h1, rfl⟩
      exact h a _ (hget size a h1)
  · exact fun z g p h1 h2 h3 h4 => hsym z g p h1 h2 h3 h4
  · simp only [← hNiff]
    exact hDa

end Verif.BF
