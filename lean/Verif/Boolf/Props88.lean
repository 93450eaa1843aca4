import Verif.Boolf.Props87

/-!
# C158: the theorems on `ec_clan_matrix_wiki`
-/

namespace Verif.BF
open Verif.Py Verif.BV Verif.P Verif.W Verif.SP
open Verif.A hiding Mat

theorem mapM_exists {α β γ : Type} {act : α → Except Err γ} {t : β → γ} {P : α → β → Prop} :
    ∀ (l : List α), (∀ x ∈ l, ∃ y, act x = .ok (t y) ∧ P x y) → ∃ ys, l.mapM act = .ok (ys.map t) ∧ List.Forall₂ P l ys
  | [], _ => ⟨[], rfl, .nil⟩
  | x :: l, h => by
    obtain ⟨y, y1, y2⟩ := h x (by simp)
    obtain ⟨ys, z1, z2⟩ := mapM_exists l fun x hx => h x (by simp [hx])
    refine ⟨y :: ys, ?_, .cons y2 z2⟩
    rw [List.mapM_cons, y1, z1]
    rfl

theorem forall₂_right {α β : Type} {P : α → β → Prop} {l : List α} {m : List β} (h : List.Forall₂ P l m) : ∀ y ∈ m, ∃ x ∈ l, P x y := by
  induction h with
  | nil => simp
  | cons h1 _ ih =>
    intro y hy
    rcases List.mem_cons.1 hy with rfl | hy
    · exact ⟨_, by simp, h1⟩
    · obtain ⟨x, hx, hp⟩ := ih y hy
      exact ⟨x, by simp [hx], hp⟩

theorem forall₂_map {α β γ : Type} {P : α → β → Prop} {l : List α} {m : List β} {u : α → γ} {v : β → γ} (h : List.Forall₂ P l m) (huv : ∀ x y, P x y → v y = u x) : m.map v = l.map u := by
  induction h with
  | nil => rfl
  | cons h1 _ ih => rw [List.map_cons, List.map_cons, ih, huv _ _ h1]

/-- all cells of a table -/
def WikiTable.cells (t : WikiTable) : List WikiCell := t.rows.flatMap fun r => r.cells.flatten

/-- the cells of a family in a row -/
structure GroupOf (width : Nat) (L : List Nat) (group : List WikiCell) : Prop where
  zhes : group.map WikiCell.zhe = L
  colspans : (group.map WikiCell.colspan).sum = width
  last : group.map WikiCell.last = List.replicate (L.length - 1) false ++ [true]

/-- the row of a faction -/
structure RowOf (M : ClanMatrix) (width : Nat) (r : WikiRow) : Prop where
  keynegs : ∃ ks, M.factionKeynegs.get? r.rep = some ks ∧ GroupedByWeight ks r.keynegs
  cardinality : r.cardinality = r.cells.flatten.length
  weight : ∀ c ∈ r.cells.flatten, weightOf c.zhe = r.weight
  groups : List.Forall₂ (fun b group => ∃ L, M.splinterDict.get? (r.rep, b) = some L ∧ GroupOf width L group) M.familyReps r.cells

theorem last_flags (L : List Nat) (h : L ≠ []) : (L.zipIdx.map fun x => decide ((x.2 : Int) = (L.length : Int) - 1)) = List.replicate (L.length - 1) false ++ [true] := by
  have h0 : 0 < L.length := List.length_pos_of_ne_nil h
  apply List.ext_getElem
  · simp; omega
  · intro i h1 h2
    simp only [List.length_map, List.length_zipIdx] at h1
    simp only [List.getElem_map, List.getElem_zipIdx, List.getElem_append, List.length_replicate, Nat.zero_add]
    split
    · simp only [List.getElem_replicate, decide_eq_false_iff_not]
      omega
    · simp only [List.getElem_singleton, decide_eq_true_eq]
      omega

theorem forall₂_mono {α β : Type} {P Q : α → β → Prop} {l : List α} {m : List β} (h : List.Forall₂ P l m) (hpq : ∀ x ∈ l, ∀ y, P x y → Q x y) : List.Forall₂ Q l m := by
  induction h with
  | nil => exact .nil
  | cons h1 _ ih => exact .cons (hpq _ (by simp) _ h1) (ih fun x hx => hpq x (by simp [hx]))

theorem forall₂_sum {α β : Type} {P : α → β → Prop} {l : List α} {m : List β} {v : β → Nat} {s : Nat} (h : List.Forall₂ P l m) (hv : ∀ x ∈ l, ∀ y, P x y → v y = s) :
    (m.map v).sum = s * l.length := by
  induction h with
  | nil => simp
  | cons h1 _ ih =>
    rw [List.map_cons, List.sum_cons, ih fun x hx => hv x (by simp [hx]), hv _ (by simp) _ h1, List.length_cons, Nat.mul_succ, Nat.add_comm]

theorem familyHeader_eq {M : ClanMatrix} {b : Nat} {l : List Nat} (h : M.familyPerms.get? b = some l) (h0 : 0 < M.lcm) :
    familyHeader M b = .ok (familyText M.lcm.toNat (b, l)) := by
  have hstr : intStr M.lcm = natStr M.lcm.toNat := by
    unfold intStr
    rw [if_neg (by omega)]
  unfold familyHeader familyText
  simp only [dictGet, h, bind, Except.bind, pure, Except.pure, hstr]

/-- what the printed lines are -/
structure WikiSpec (f : Boolf) (M : ClanMatrix) (t : WikiTable) : Prop where
  width : (t.width : Int) = M.lcm
  families : t.families = M.familyPerms
  familyReps : t.families.map Prod.fst = M.familyReps
  factionReps : t.rows.map WikiRow.rep = M.factionReps
  rows : ∀ r ∈ t.rows, RowOf M t.width r
  cells : ∀ c ∈ t.cells, ∃ g, SignedRenamed f.adicity f g ∧ CellOf f g M c
  nodup : (t.cells.map WikiCell.zhe).Nodup
  all : ∀ g z, Reach g → g.zhe = .ok z → (z ∈ t.cells.map WikiCell.zhe ↔ SignedRenamed f.adicity f g)

/-- **C158.** For a root function with at most five arguments (or a constant) `ec_clan_matrix_wiki` prints the lines of a table.  The columns belong to the families, and
the rows to the factions, as in `ec_clan_matrix`.  Each row is as wide as the header: under each family the cells of the splinter cover the columns of the family, and only
the last one has a border.  Each function of the clan has exactly one cell.  It is marked as the base cell only for the function itself.  The cell contains the table of exactly those signed
permutations that turn the function into the one of the cell.  The line of a row shows the weight of all Zhegalkin indices and the number of cells in it. -/
theorem C158_table (f : Boolf) (hf : Reach f) (hroot : f.isRoot = true) (ha : f.isConstant = true ∨ f.adicity ≤ 5) (order : List Boolf → List Boolf)
    (orderPerm orderNeg : List (List Boolf) → List (List Boolf)) (ho : ∀ l, (order l).Perm l) (hop : ∀ l, (orderPerm l).Perm l) (hon : ∀ l, (orderNeg l).Perm l) :
    ∃ M t, f.ecClanMatrix order orderPerm orderNeg = .ok M ∧ f.ecClanMatrixWiki order orderPerm orderNeg = .ok (t.lines f.adicity) ∧ WikiSpec f M t := by
  obtain ⟨R, M, sym, h1, h2, h⟩ := clan_matrix f hf hroot ha order orderPerm orderNeg ho hop hon
  obtain ⟨R', hR', P, Q, X, Xne, Xlen⟩ := C105_clan_partitioned f hf hroot ha order orderPerm orderNeg ho hop hon
  rw [h1] at hR'
  cases hR'
  obtain ⟨M', hM', _, D⟩ := C114_partitions f hf hroot ha order orderPerm orderNeg ho hop hon
  rw [h2] at hM'
  cases hM'
  obtain ⟨R', M', sym', hR', hM', _, _, hsplit, _⟩ := C116_splinters f hf hroot ha order orderPerm orderNeg ho hop hon
  rw [h1] at hR'
  rw [h2] at hM'
  cases hR'
  cases hM'
  have hlen : f.valency = f.adicity := by
    have h1 := (isRoot_iff hf.canon.toSound).1 hroot
    apply le_antisymm (by rw [hf.canon.val]; exact length_le_adicity hf.canon)
    rw [hf.canon.adic]
    intro x hx
    rw [h1] at hx
    exact List.mem_range.1 hx
  have hA : f.atomvals = List.range f.adicity := by rw [← hlen]; exact (isRoot_iff hf.canon.toSound).1 hroot
  have h5 : f.adicity ≤ 5 := by
    rcases ha with hc | h5
    · rw [← hlen, hf.canon.val, constant_atoms hf.canon hc]
      decide
    · exact h5
  obtain ⟨E, lab, κ, r, C⟩ := clan_data hf hlen ha
  have hlcm := h.lcm.1
  -- the splinters
  have hsp : ∀ a A b B, (a, A) ∈ R.factionDict → (b, B) ∈ R.familyDict → ∃ L, M.splinterDict.get? (a, b) = some L ∧ L ≠ [] ∧ L.Nodup ∧ M.sizes.get? a = some L.length ∧
      ∀ z, z ∈ L ↔ z ∈ A ∧ z ∈ B := by
    intro a A b B hA' hB
    obtain ⟨L0, l1, l2, l3⟩ := X.part a A b B hA' hB
    obtain ⟨L, m1, m2⟩ := hsplit a b L0 l1
    refine ⟨L, m1, ?_, m2.nodup_iff.2 (l2.imp ne_of_lt), by rw [m2.length_eq]; exact h.sizes.2 a b L0 l1, fun z => by rw [m2.mem_iff, l3]⟩
    rintro rfl
    exact Xne a b L0 l1 m2.nil_eq.symm
  have hfam : ∀ b ∈ M.familyReps, ∃ B, (b, B) ∈ R.familyDict := by
    intro b hb
    rw [h.familyReps, ← Q.keys] at hb
    obtain ⟨B, hB⟩ := Dict.mem_keys_iff.1 hb
    exact ⟨B, Dict.get?_mem hB⟩
  have hfac : ∀ a ∈ M.factionReps, ∃ A, (a, A) ∈ R.factionDict := by
    intro a ha'
    rw [h.factionReps, ← P.keys] at ha'
    obtain ⟨A, hA⟩ := Dict.mem_keys_iff.1 ha'
    exact ⟨A, Dict.get?_mem hA⟩
  have hmember : ∀ a A z, (a, A) ∈ R.factionDict → z ∈ A → ∃ g, Reach g ∧ g.zhe = .ok z ∧ SignedRenamed f.adicity f g := by
    intro a A z hA' hz
    obtain ⟨g, g1, g2⟩ := P.index _ hA' z hz
    exact ⟨g, g1, g2, (P.all g z g1 g2).1 ⟨_, hA', hz⟩⟩
  -- the headers
  have hheaders : M.familyReps.mapM (familyHeader M) = .ok (M.familyPerms.map (familyText M.lcm.toNat)) := by
    have hn : M.familyPerms.keys.Nodup := h.familyPerms.keys.imp ne_of_lt
    rw [← D.keys]
    rw [mapM_ok (g := fun b => familyText M.lcm.toNat (b, (M.familyPerms.get? b).getD []))]
    · rw [Dict.keys, List.map_map]
      congr 1
      apply List.map_congr_left
      intro e he
      simp only [Function.comp]
      rw [(Dict.get?_iff_mem hn).2 he]
      rfl
    · intro b hb
      obtain ⟨l, hl⟩ := Dict.mem_keys_iff.1 hb
      rw [familyHeader_eq hl hlcm, hl]
      rfl
  -- the cells under a family
  have hgroup : ∀ a A, (a, A) ∈ R.factionDict → ∀ b ∈ M.familyReps, ∃ group : List WikiCell,
      (do
        let splinter ← dictGet M.splinterDict (a, b)
        splinter.zipIdx.mapM fun (x : Nat × Nat) => cellString f M a x.1 ((x.2 : Int) = (splinter.length : Int) - 1)) = .ok (group.map (WikiCell.text f.adicity)) ∧
      ((∃ L, M.splinterDict.get? (a, b) = some L ∧ GroupOf M.lcm.toNat L group) ∧ ∀ c ∈ group, ∃ g, SignedRenamed f.adicity f g ∧ CellOf f g M c) := by
    intro a A hA' b hb
    obtain ⟨B, hB⟩ := hfam b hb
    obtain ⟨L, l1, l2, l3, l4, l5⟩ := hsp a A b B hA' hB
    have hL0 : 0 < L.length := List.length_pos_of_ne_nil l2
    obtain ⟨group, q1, q2⟩ := mapM_exists (act := fun x : Nat × Nat => cellString f M a x.1 ((x.2 : Int) = (L.length : Int) - 1)) (t := WikiCell.text f.adicity)
      (P := fun x c => c.zhe = x.1 ∧ c.colspan = (M.lcm / (L.length : Int)).toNat ∧ c.last = decide ((x.2 : Int) = (L.length : Int) - 1) ∧
        ∃ g, SignedRenamed f.adicity f g ∧ CellOf f g M c) L.zipIdx (by
      rintro ⟨z, i⟩ hx
      obtain ⟨g, g1, g2, g3⟩ := hmember a A z hA' ((l5 z).1 (List.fst_mem_of_mem_zipIdx hx)).1
      obtain ⟨c, c1, c2, c3, c4, c5⟩ := cellString_spec h C hf hA hlen h5 g1 g3 (clan_adicity hf g1 hroot g3) g2 l4 hL0 (decide ((i : Int) = (L.length : Int) - 1))
      exact ⟨c, c1, c2, c3, c4, g, g3, c5⟩)
    refine ⟨group, ?_, ⟨L, l1, ?_, ?_, ?_⟩, ?_⟩
    · simp only [dictGet, l1, bind, Except.bind]
      exact q1
    · rw [forall₂_map (u := Prod.fst) q2 (fun _ _ h => h.1), List.zipIdx_map_fst]
    · rw [forall₂_sum (s := (M.lcm / (L.length : Int)).toNat) q2 (fun _ _ _ h => h.2.1), List.length_zipIdx]
      have hd : ((L.length : Nat) : Int) ∣ M.lcm := (h.lcm.2 M.lcm).1 (dvd_refl _) a L.length l4
      obtain ⟨q, hq⟩ := hd
      have hq0 : 0 < q := by
        by_contra hc
        have : M.lcm ≤ 0 := by rw [hq]; exact Int.mul_nonpos_of_nonneg_of_nonpos (by omega) (by omega)
        omega
      rw [hq, Int.mul_ediv_cancel_left _ (by omega), Int.toNat_mul (by omega) (by omega), Int.toNat_natCast, Nat.mul_comm]
    · rw [forall₂_map (u := fun x : Nat × Nat => decide ((x.2 : Int) = (L.length : Int) - 1)) q2 (fun _ _ h => h.2.2.1), last_flags L l2]
    · intro c hc
      obtain ⟨_, _, hx⟩ := forall₂_right q2 c hc
      exact hx.2.2.2
  -- the rows
  have hrow : ∀ a ∈ M.factionReps, ∃ r : WikiRow, factionLines f M a = .ok (r.lines f.adicity) ∧
      (r.rep = a ∧ RowOf M M.lcm.toNat r ∧ ∀ c ∈ r.cells.flatten, ∃ g, SignedRenamed f.adicity f g ∧ CellOf f g M c) := by
    intro a ha'
    obtain ⟨A, hA'⟩ := hfac a ha'
    obtain ⟨cells, q1, q2⟩ := mapM_exists M.familyReps (hgroup a A hA')
    obtain ⟨w, w1, w2⟩ := h.weights.2 a A (by rw [h.factionDict]; exact hA')
    obtain ⟨s, hs⟩ : ∃ s, M.sizes.get? a = some s := Dict.mem_keys_iff.1 (by rw [h.sizes.1]; exact ha')
    obtain ⟨ks, hks⟩ : ∃ ks, M.factionKeynegs.get? a = some ks := by
      obtain ⟨g, g1, g2, g3⟩ := hmember a A a hA' (P.mem_head hA')
      obtain ⟨i, hi, rfl⟩ := (C.member hf hA g1).1 g3
      obtain ⟨l, l1, _⟩ := h.factionKeynegs.list (k := a) ⟨κ i, A, a, lab i, _, _, by rw [h.factionDict]; exact hA', P.mem_head hA', g1, g2, (C.turns i hi _ g1).1 rfl⟩
      exact ⟨l, l1⟩
    obtain ⟨G, G1, G2⟩ := keynegTable_spec hks
    refine ⟨⟨a, w, s * M.familyReps.length, G, cells⟩, ?_, rfl, ⟨⟨ks, hks, G2⟩, ?_, ?_, ?_⟩, ?_⟩
    · unfold factionLines WikiRow.lines
      simp only [dictGet, hs, w1, bind, Except.bind, G1]
      simp only [dictGet, bind, Except.bind] at q1
      rw [q1]
      simp only [pure, Except.pure, List.map_flatten]
    · show s * M.familyReps.length = cells.flatten.length
      rw [List.length_flatten, forall₂_sum (s := s) q2]
      rintro b hb group ⟨⟨L, L1, L2⟩, _⟩
      obtain ⟨B, hB⟩ := hfam b hb
      obtain ⟨L', l1, _, _, l4, _⟩ := hsp a A b B hA' hB
      rw [L1] at l1
      cases l1
      rw [hs] at l4
      cases l4
      rw [← L2.zhes, List.length_map]
    · intro c hc
      obtain ⟨group, hg, hcg⟩ := List.mem_flatten.1 hc
      obtain ⟨b, hb, ⟨L, L1, L2⟩, _⟩ := forall₂_right q2 group hg
      obtain ⟨B, hB⟩ := hfam b hb
      obtain ⟨L', l1, _, _, _, l5⟩ := hsp a A b B hA' hB
      rw [L1] at l1
      cases l1
      refine w2 _ ((l5 _).1 ?_).1
      rw [← L2.zhes]
      exact List.mem_map.2 ⟨c, hcg, rfl⟩
    · exact forall₂_mono q2 fun _ _ _ h => h.1
    · intro c hc
      obtain ⟨group, hg, hcg⟩ := List.mem_flatten.1 hc
      obtain ⟨_, _, _, hx⟩ := forall₂_right q2 group hg
      exact hx c hcg
  obtain ⟨rows, q1, q2⟩ := mapM_exists M.factionReps hrow
  have hzhes : rows.map (fun r => r.cells.flatten.map WikiCell.zhe) = M.factionReps.map fun a => M.familyReps.flatMap fun b => (M.splinterDict.get? (a, b)).getD [] := by
    apply forall₂_map q2
    rintro a r ⟨rfl, hr, _⟩
    rw [List.map_flatten, List.flatMap]
    congr 1
    apply forall₂_map hr.groups
    rintro b group ⟨L, L1, L2⟩
    rw [L1, L2.zhes]
    rfl
  obtain ⟨t, ht⟩ : ∃ t : WikiTable, t = ⟨M.lcm.toNat, M.familyPerms, rows⟩ := ⟨_, rfl⟩
  have hcells : t.cells.map WikiCell.zhe = M.factionReps.flatMap fun a => M.familyReps.flatMap fun b => (M.splinterDict.get? (a, b)).getD [] := by
    rw [ht, List.flatMap, ← hzhes, WikiTable.cells, List.map_flatMap]
    rfl
  have hmem : ∀ z a b, a ∈ M.factionReps → b ∈ M.familyReps → z ∈ (M.splinterDict.get? (a, b)).getD [] → ∃ A B, (a, A) ∈ R.factionDict ∧ (b, B) ∈ R.familyDict ∧ z ∈ A ∧ z ∈ B := by
    intro z a b ha' hb hz
    obtain ⟨A, hA'⟩ := hfac a ha'
    obtain ⟨B, hB⟩ := hfam b hb
    obtain ⟨L, l1, _, _, _, l5⟩ := hsp a A b B hA' hB
    rw [l1] at hz
    exact ⟨A, B, hA', hB, ((l5 z).1 hz).1, ((l5 z).1 hz).2⟩
  refine ⟨M, t, h2, ?_, ?_, ?_, ?_, ?_, ?_, ?_, ?_, ?_⟩
  · unfold Boolf.ecClanMatrixWiki
    rw [h2]
    simp only [bind, Except.bind]
    rw [hheaders]
    simp only
    rw [q1]
    rw [ht]
    unfold WikiTable.lines wikiTop wikiBottom
    simp only [pure, Except.pure, List.flatMap, hlen]
    congr 3
    split <;> decide
  · rw [ht]
    exact Int.toNat_of_nonneg (by omega)
  · rw [ht]
  · rw [ht]
    exact D.keys
  · rw [ht]
    have := forall₂_map (u := id) (v := WikiRow.rep) q2 fun _ _ h => h.1
    simpa using this
  · rw [ht]
    intro r hr
    obtain ⟨_, _, hx⟩ := forall₂_right q2 r hr
    exact hx.2.1
  · intro c hc
    rw [ht] at hc
    obtain ⟨r, hr, hcr⟩ := List.mem_flatMap.1 hc
    obtain ⟨_, _, hx⟩ := forall₂_right q2 r hr
    exact hx.2.2 c hcr
  · rw [hcells, List.nodup_flatMap]
    have hPn : M.factionReps.Nodup := by rw [h.factionReps]; exact P.ascReps.imp ne_of_lt
    have hQn : M.familyReps.Nodup := by rw [h.familyReps]; exact Q.ascReps.imp ne_of_lt
    constructor
    · intro a ha'
      rw [List.nodup_flatMap]
      constructor
      · intro b hb
        obtain ⟨A, hA'⟩ := hfac a ha'
        obtain ⟨B, hB⟩ := hfam b hb
        obtain ⟨L, l1, _, l3, _⟩ := hsp a A b B hA' hB
        rw [l1]
        exact l3
      · refine List.Pairwise.imp_of_mem ?_ hQn
        intro b b' hb hb' hne z hz hz'
        obtain ⟨_, B, _, hB, _, z1⟩ := hmem z a b ha' hb hz
        obtain ⟨_, B', _, hB', _, z2⟩ := hmem z a b' ha' hb' hz'
        exact hne (congrArg Prod.fst (Q.disjoint hB hB' z1 z2))
    · refine List.Pairwise.imp_of_mem ?_ hPn
      intro a a' ha1 ha2 hne z hz hz'
      obtain ⟨b, hb, hz⟩ := List.mem_flatMap.1 hz
      obtain ⟨b', hb', hz'⟩ := List.mem_flatMap.1 hz'
      obtain ⟨A, _, hA1, _, z1, _⟩ := hmem z a b ha1 hb hz
      obtain ⟨A', _, hA2, _, z2, _⟩ := hmem z a' b' ha2 hb' hz'
      exact hne (congrArg Prod.fst (P.disjoint hA1 hA2 z1 z2))
  · intro g z hg hz
    rw [hcells]
    constructor
    · intro hzm
      obtain ⟨a, ha', hzm⟩ := List.mem_flatMap.1 hzm
      obtain ⟨b, hb, hzm⟩ := List.mem_flatMap.1 hzm
      obtain ⟨A, _, hA1, _, z1, _⟩ := hmem z a b ha' hb hzm
      exact (P.all g z hg hz).1 ⟨_, hA1, z1⟩
    · intro hm
      obtain ⟨⟨a, A⟩, hA1, z1⟩ := (P.all g z hg hz).2 hm
      obtain ⟨⟨b, B⟩, hB1, z2⟩ := (Q.all g z hg hz).2 hm
      obtain ⟨L, l1, _, _, _, l5⟩ := hsp a A b B hA1 hB1
      refine List.mem_flatMap.2 ⟨a, ?_, List.mem_flatMap.2 ⟨b, ?_, ?_⟩⟩
      · rw [h.factionReps, ← P.keys]
        exact List.mem_map.2 ⟨_, hA1, rfl⟩
      · rw [h.familyReps, ← Q.keys]
        exact List.mem_map.2 ⟨_, hB1, rfl⟩
      · rw [l1]
        exact (l5 z).2 ⟨z1, z2⟩

/-- **C158.** In the table of a function exactly one cell is marked as the base cell: the one with the Zhegalkin index of the function. -/
theorem C158_base (f : Boolf) (hf : Reach f) {M : ClanMatrix} {t : WikiTable} (h : WikiSpec f M t) :
    ∃ c, (t.cells.filter WikiCell.base) = [c] ∧ f.zhe = .ok c.zhe := by
  obtain ⟨z, hz⟩ := zhe_exists hf
  have hiff : ∀ c ∈ t.cells, (c.base = true ↔ c.zhe = z) := by
    intro c hc
    obtain ⟨g, _, hg⟩ := h.cells c hc
    rw [hg.base]
    constructor
    · rintro rfl
      have := hg.zhe
      rw [hz] at this
      exact (Except.ok.inj this).symm
    · intro e
      exact zhe_inj hg.reach hf (e ▸ hg.zhe) hz
  have hself : SignedRenamed f.adicity f f := by
    refine ⟨id, fun _ => false, fun x hx => ?_, fun x _ y _ h => h, fun key key' hk => ?_⟩
    · exact hf.canon.adic_lt hx
    · rw [getItem_eq hf.canon.toSound, getItem_eq hf.canon.toSound, Boolf.eval_congr fun x hx => (show key.testBit x = key'.testBit x by rw [hk x hx, Bool.xor_false, id])]
  obtain ⟨c, hc, hcz⟩ := List.mem_map.1 ((h.all f z hf hz).2 hself)
  refine ⟨c, ?_, by rw [hcz, hz]⟩
  have hn := h.nodup
  rw [List.filter_congr (q := fun c' => decide (c'.zhe = z)) fun c' hc' => by
    rw [Bool.eq_iff_iff, hiff c' hc', decide_eq_true_iff]]
  obtain ⟨l1, l2, hl⟩ := List.append_of_mem hc
  rw [hl] at hn ⊢
  rw [List.map_append, List.map_cons, List.nodup_append, List.nodup_cons] at hn
  rw [List.filter_append, List.filter_cons_of_pos (by simpa using hcz)]
  rw [List.filter_eq_nil_iff.2, List.filter_eq_nil_iff.2, List.nil_append]
  · intro c' hc' e
    exact hn.2.1.1 (List.mem_map.2 ⟨c', hc', by rw [hcz]; simpa using e⟩)
  · intro c' hc' e
    exact hn.2.2 c'.zhe (List.mem_map.2 ⟨c', hc', rfl⟩) c.zhe (by simp) (by rw [hcz]; simpa using e)

example : ∃ f M t, newTT (.str "0001".toList) = .ok f ∧ Reach f ∧ f.isRoot = true ∧ f.isConstant = false ∧ f.adicity = 2 ∧
    f.ecClanMatrixWiki List.reverse id List.reverse = .ok (t.lines 2) ∧ WikiSpec f M t := by
  obtain ⟨_, e1, e2⟩ := newTT_explicit "0001".toList [false, false, false, true] [0, 1] 2 (by decide) (by decide) (by decide) (by intro n; simp; omega) (by decide) (by decide)
  obtain ⟨M, t, _, h2, h3⟩ := C158_table _ e2.reach (by decide) (.inr (by decide)) List.reverse id List.reverse (fun l => l.reverse_perm) (fun l => .refl l) (fun l => l.reverse_perm)
  exact ⟨_, M, t, e1 (by decide), e2.reach, by decide, by decide, by decide, h2, h3⟩

/-- **C158.** The lines do not depend on the orders in which python iterates over the sets. -/
theorem C158_order (f : Boolf) (hf : Reach f) (ha : f.isConstant = true ∨ f.adicity ≤ 5) (order order' : List Boolf → List Boolf)
    (orderPerm orderNeg orderPerm' orderNeg' : List (List Boolf) → List (List Boolf)) (ho : ∀ l, (order l).Perm l) (hop : ∀ l, (orderPerm l).Perm l)
    (hon : ∀ l, (orderNeg l).Perm l) (ho' : ∀ l, (order' l).Perm l) (hop' : ∀ l, (orderPerm' l).Perm l) (hon' : ∀ l, (orderNeg' l).Perm l) :
    f.ecClanMatrixWiki order orderPerm orderNeg = f.ecClanMatrixWiki order' orderPerm' orderNeg' := by
  unfold Boolf.ecClanMatrixWiki
  rw [C113_order f hf ha order order' orderPerm orderNeg orderPerm' orderNeg' ho hop hon ho' hop' hon']

/-- **C158.** Functions that are not roots and those with more than five arguments are rejected. -/
theorem C158_errors (f : Boolf) (order : List Boolf → List Boolf) (orderPerm orderNeg : List (List Boolf) → List (List Boolf)) :
    (f.isRoot = false → f.ecClanMatrixWiki order orderPerm orderNeg = .error .notSpreadless) ∧
    (f.isRoot = true → f.isConstant = false → 5 < f.adicity → f.ecClanMatrixWiki order orderPerm orderNeg = .error .argNotFeasible) := by
  unfold Boolf.ecClanMatrixWiki
  constructor
  · intro h
    rw [(C113_errors f order orderPerm orderNeg).1 h]
    rfl
  · intro h1 h2 h3
    rw [(C113_errors f order orderPerm orderNeg).2 h1 h2 h3]
    rfl

end Verif.BF
