import Verif.Boolf.Props86

/-!
# C158: the wiki table of a clan
-/

namespace Verif.BF
open Verif.Py Verif.BV Verif.P Verif.W Verif.SP
open Verif.A hiding Mat

/-! ## the format -/

/-- a cell of the table -/
structure WikiCell where
  /-- the number of columns that it covers -/
  colspan : Nat
  /-- the last one of its family in its row -/
  last : Bool
  /-- it belongs to the function itself -/
  base : Bool
  /-- its number is the representative of its family -/
  familyRep : Bool
  /-- its number is the representative of its faction -/
  factionRep : Bool
  zhe : Nat
  zheDigits : List Char
  ttDigits : List Char
  keynegs : List Nat
  valnegs : List Nat
  /-- the `perm` indices, by those of `keyneg` and `valneg` -/
  perms : Nat → Nat → List Nat
  /-- the sequences of the signed permutations, by their `valneg` and `perm` indices -/
  sequence : Nat → Nat → List Int

/-- the line with a cell -/
def WikiCell.text (arity : Nat) (c : WikiCell) : List Char :=
  "|colspan=\"".toList ++ natStr c.colspan ++ "\" ".toList ++
    (if c.last then (if c.base then "class=\"border base\"".toList else "class=\"border\"".toList) else if c.base then "class=\"base\"".toList else []) ++ "|".toList ++
    (if arity = 3 then "[[File:Venn ".toList ++ c.ttDigits ++ ".svg|25px]]<br>".toList else if arity = 2 then "[[File:Venn".toList ++ c.ttDigits ++ ".svg|25px]]<br>".toList else []) ++
    " <abbr class=\"zhegalkin".toList ++ (if c.familyRep then " neg-ec-min".toList else []) ++ (if c.factionRep then " perm-ec-min".toList else []) ++
    "\" title=\"".toList ++ c.zheDigits ++ "&#10;".toList ++ c.ttDigits ++ "\">".toList ++ natStr c.zhe ++ "</abbr>".toList ++
    sigpermTable c.keynegs c.valnegs c.perms c.sequence

/-- the `keyneg` indices of a faction, in groups with the same binary weight -/
def keynegText (groups : List (Nat × List Nat)) : List Char :=
  "<span class=\"invisible-sortkey\">&".toList ++ natStr (groups.map Prod.fst).sum ++ "_".toList ++ (groups.map Prod.fst).flatMap natStr ++ "</span>".toList ++
    "<table class=\"keyneg-indices\">".toList ++ "<tr class=\"weights\">".toList ++ ((groups.map Prod.fst).flatMap fun w => "<td>".toList ++ natStr w ++ "</td>".toList) ++ "</tr>".toList ++
    "<tr class=\"indices\">".toList ++ (groups.flatMap fun e => "<td><span class=\"number-icons\">".toList ++
      (e.2.flatMap fun k => "[[File:Cube vertex number ".toList ++ natStr k ++ " in square.svg|25px]]".toList) ++ "</span></td>".toList) ++ "</tr>".toList ++ "</table>".toList

/-- a row of the table; the cells are grouped by families -/
structure WikiRow where
  rep : Nat
  weight : Nat
  cardinality : Nat
  keynegs : List (Nat × List Nat)
  cells : List (List WikiCell)

/-- the lines of a row -/
def WikiRow.lines (arity : Nat) (r : WikiRow) : List (List Char) :=
  ["|-".toList, "|class=\"zhegalkin-weight\"| ".toList ++ natStr r.weight, "|class=\"cardinality\"| ".toList ++ natStr r.cardinality,
    "|class=\"perm-ec-min ec-min-side\"| ".toList ++ natStr r.rep, "! ".toList ++ keynegText r.keynegs] ++ r.cells.flatten.map (WikiCell.text arity)

/-- the table; each family has a representative and a list of `perm` indices, and covers `width` columns -/
structure WikiTable where
  width : Nat
  families : List (Nat × List Nat)
  rows : List WikiRow

/-- the line above the columns of a family -/
def familyText (width : Nat) (e : Nat × List Nat) : List Char :=
  "!colspan=\"".toList ++ natStr width ++ "\" class=\"unsortable border\"| <span class=\"number-icons\">".toList ++
    (e.2.flatMap fun p => "[[File:Finite permutation number ".toList ++ natStr p ++ ".svg|25px]]".toList) ++
    "</span><br><span class=\"neg-ec-min ec-min-side\">".toList ++ natStr e.1 ++ "</span>".toList

/-- the lines of the table -/
def WikiTable.lines (arity : Nat) (t : WikiTable) : List (List Char) :=
  ["<templatestyles src=\"Studies of Euler diagrams/NP tables/style.css\" />".toList,
    "{| class=\"wikitable sortable np\" style=\"text-align: center;\"\n|-".toList,
    "! <abbr class=\"hint\" title=\"binary weight of the Zhegalkin indices in that row\">W</abbr>".toList,
    "! <abbr class=\"hint\" title=\"cardinality of the permutation equivalence class&#10;(number of different functions in that row)\">C</abbr>".toList,
    "!".toList, "!".toList] ++ t.families.map (familyText t.width) ++ t.rows.flatMap (WikiRow.lines arity) ++
    [if arity = 4 then "|}<noinclude>[[Category:Studies of Euler diagrams; templates; NP tables; 4-ary]]</noinclude>".toList
      else "|}<noinclude>[[Category:Studies of Euler diagrams; templates; NP tables]]</noinclude>".toList]

/-! ## what the parts mean -/

/-- the cell of a member `g` of the clan of `f` -/
structure CellOf (f g : Boolf) (M : ClanMatrix) (c : WikiCell) : Prop where
  reach : Reach g
  zhe : g.zhe = .ok c.zhe
  zheDigits : ∃ b : Binv, b.vector = (List.range (2 ^ f.adicity)).map c.zhe.testBit ∧ b.pretty = .ok c.zheDigits
  ttDigits : ∃ b : Binv, b.length = 2 ^ f.adicity ∧ (∀ i < 2 ^ f.adicity, g.getItem i = .ok (b.vector.getD i false)) ∧ b.pretty = .ok c.ttDigits
  base : c.base = true ↔ g = f
  familyRep : c.familyRep = true ↔ c.zhe ∈ M.familyReps
  factionRep : c.factionRep = true ↔ c.zhe ∈ M.factionReps
  keynegsAsc : c.keynegs.Pairwise WeightLt
  keynegs : ∀ k, k ∈ c.keynegs ↔ ∃ p v, Turns f g k p v
  valnegsAsc : c.valnegs.Pairwise WeightLt
  valnegs : ∀ v, v ∈ c.valnegs ↔ ∃ k p, Turns f g k p v
  permsAsc : ∀ k v, (c.perms k v).Pairwise (· < ·)
  perms : ∀ k v p, p ∈ c.perms k v ↔ Turns f g k p v
  sequence : ∀ k p v, Turns f g k p v → ∃ σ, SG.new { pair := some ((v : Int), (p : Int)) } = .ok σ ∧ σ.sequence (some f.adicity) = .ok (c.sequence v p)

/-- the numbers of a list in groups of the same binary weight -/
structure GroupedByWeight (l : List Nat) (groups : List (Nat × List Nat)) : Prop where
  asc : (groups.map Prod.fst).Pairwise (· < ·)
  groupAsc : ∀ e ∈ groups, e.2.Pairwise (· < ·)
  nonempty : ∀ e ∈ groups, e.2 ≠ []
  mem : ∀ w k, (∃ g, (w, g) ∈ groups ∧ k ∈ g) ↔ k ∈ l ∧ weightOf k = w

/-! ## the groups of `keyneg` indices -/

theorem weightSets_spec (l : List Nat) : ∀ {R : Nat → Nat → Prop} {d : Dict Nat (List Nat)}, SetsOf R d →
    ∃ d', weightSets l d = .ok d' ∧ SetsOf (fun w k => R w k ∨ k ∈ l ∧ weightOf k = w) d' := by
  induction l with
  | nil => intro R d h; exact ⟨d, rfl, h.congr (by simp)⟩
  | cons k l ih =>
    intro R d h
    obtain ⟨b, b1, _⟩ := C26_intval_only k
    have hb : BV.mk { intval := some (k : Int) } = .ok b := b1
    obtain ⟨d', d1, d2⟩ := ih (h.addTo (weightOf k) k)
    refine ⟨d', ?_, d2.congr fun w x => ?_⟩
    · rw [weightSets, hb]
      simp only [bind, Except.bind, weight_mk hb]
      exact d1
    · rw [List.mem_cons]
      constructor
      · rintro ((h | ⟨rfl, rfl⟩) | ⟨h, h'⟩)
        · exact .inl h
        · exact .inr ⟨.inl rfl, rfl⟩
        · exact .inr ⟨.inr h, h'⟩
      · rintro (h | ⟨rfl | h, h'⟩)
        · exact .inl (.inl h)
        · exact .inl (.inr ⟨h'.symm, rfl⟩)
        · exact .inr ⟨h, h'⟩

theorem keynegTable_spec {D : Dict Nat (List Nat)} {a : Nat} {l : List Nat} (h : D.get? a = some l) :
    ∃ G, keynegTable D a = .ok (keynegText G) ∧ GroupedByWeight l G := by
  obtain ⟨d, d1, d2⟩ := weightSets_spec l (R := fun _ _ => False) (d := []) ⟨List.nodup_nil, by simp, by simp, by simp⟩
  have hget : ∀ w ∈ sorted d.keys, ∃ s, d.get? w = some s := fun w hw => Dict.mem_keys_iff.1 (mem_sorted.1 hw)
  have hcells : ((sorted d.keys).mapM fun weight => (do
      let exposet := sorted (← dictGet d weight)
      return "<td><span class=\"number-icons\">".toList ++
        (exposet.flatMap fun keynegIndex => "[[File:Cube vertex number ".toList ++ natStr keynegIndex ++ " in square.svg|25px]]".toList) ++ "</span></td>".toList : Except Err (List Char))) =
      .ok ((sorted d.keys).map fun w => "<td><span class=\"number-icons\">".toList ++
        ((sorted ((d.get? w).getD [])).flatMap fun k => "[[File:Cube vertex number ".toList ++ natStr k ++ " in square.svg|25px]]".toList) ++ "</span></td>".toList) := by
    apply mapM_ok
    intro w hw
    obtain ⟨s, hs⟩ := hget w hw
    simp only [dictGet, hs, bind, Except.bind, pure, Except.pure, Option.getD_some]
  have hfst : ((sorted d.keys).map fun w => (w, sorted ((d.get? w).getD []))).map Prod.fst = sorted d.keys := by
    rw [List.map_map]
    exact List.map_id _
  refine ⟨(sorted d.keys).map fun w => (w, sorted ((d.get? w).getD [])), ?_, ?_, ?_, ?_, ?_⟩
  · unfold keynegTable
    simp only [dictGet, h, bind, Except.bind, d1] at hcells ⊢
    rw [hcells]
    unfold keynegText
    simp only [pure, Except.pure]
    rw [hfst, List.flatMap_map]
    simp only [List.append_assoc, List.flatMap]
  · rw [hfst]
    exact sorted_asc d2.keys
  · intro e he
    obtain ⟨w, hw, rfl⟩ := List.mem_map.1 he
    obtain ⟨s, hs⟩ := hget w hw
    simp only [hs, Option.getD_some]
    exact sorted_asc (d2.nodup _ (Dict.get?_mem hs))
  · intro e he
    obtain ⟨w, hw, rfl⟩ := List.mem_map.1 he
    obtain ⟨s, hs⟩ := hget w hw
    simp only [hs, Option.getD_some]
    intro hc
    have hp := sorted_perm s
    rw [hc] at hp
    exact d2.nonempty _ (Dict.get?_mem hs) hp.nil_eq.symm
  · intro w k
    rw [← show (False ∨ k ∈ l ∧ weightOf k = w) ↔ k ∈ l ∧ weightOf k = w by simp, ← d2.mem w k]
    constructor
    · rintro ⟨g, hg, hk⟩
      obtain ⟨w', hw, h1⟩ := List.mem_map.1 hg
      obtain ⟨s, hs⟩ := hget w' hw
      simp only [hs, Option.getD_some, Prod.mk.injEq] at h1
      obtain ⟨rfl, rfl⟩ := h1
      exact ⟨s, Dict.get?_mem hs, mem_sorted.1 hk⟩
    · rintro ⟨s, hs, hk⟩
      refine ⟨sorted s, List.mem_map.2 ⟨w, mem_sorted.2 (List.mem_map.2 ⟨_, hs, rfl⟩), ?_⟩, mem_sorted.2 hk⟩
      rw [(Dict.get?_iff_mem d2.keys).2 hs]
      rfl

/-! ## the cells -/

theorem ListsOf.list {β : Type} {lt : β → β → Prop} {R : Nat → β → Prop} {d : Dict Nat (List β)} (h : ListsOf lt R d) {k : Nat} (hk : ∃ x, R k x) :
    ∃ l, d.get? k = some l ∧ l.Pairwise lt ∧ l ≠ [] ∧ ∀ x, x ∈ l ↔ R k x := by
  obtain ⟨x, hx⟩ := hk
  obtain ⟨l, hl, _⟩ := (h.mem k x).2 hx
  have hn : d.keys.Nodup := h.keys.imp ne_of_lt
  refine ⟨l, (Dict.get?_iff_mem hn).2 hl, h.asc _ hl, h.nonempty _ hl, fun y => ?_⟩
  rw [← h.mem k y]
  exact ⟨fun hy => ⟨l, hl, hy⟩, fun ⟨l', hl', hy⟩ => eq_of_key hn hl' hl ▸ hy⟩

theorem turns_zero {f : Boolf} : Turns f f 0 0 0 := by
  obtain ⟨σ, φ, r, k, s1, s2, s3, s4, _, _, _, _, s5⟩ := sigperm_keyneg (n := 0) (p := 0) (v := 0) (t := []) (by decide) (by decide)
  obtain rfl : k = 0 := by simpa using s4
  refine ⟨Nat.two_pow_pos _, Nat.factorial_pos _, σ, s1, s3, ?_⟩
  intro i j hij
  rw [s2] at hij
  cases hij
  have : φ i = i := Nat.eq_of_testBit_eq fun x => (s5 i).2 x (Nat.zero_le x)
  rw [this]

theorem turns_zero_iff {f g : Boolf} {E : EcPart} {lab : Nat → Boolf} {κ : Nat → Nat} {r : Nat → Nat → Nat} (C : ClanData f E lab κ r) (hf : Reach f) (hg : Reach g) :
    Turns f g 0 0 0 ↔ g = f := by
  constructor
  · intro h
    obtain ⟨i, hi, rfl, _, i1, i2⟩ := C.turns_index hg h
    obtain ⟨j, hj, hjf, _, j1, j2⟩ := C.turns_index hf turns_zero
    have : i = j := by rw [← Nat.div_add_mod i (Nat.factorial f.adicity), ← Nat.div_add_mod j (Nat.factorial f.adicity), i1, i2, j1, j2]
    rw [this, hjf]
  · rintro rfl
    exact turns_zero

/-- the signed permutation with a pair of indices has a sequence of the length `n` -/
theorem pair_sequence {n p v : Nat} (hv : v < 2 ^ n) (hp : p < Nat.factorial n) :
    ∃ σ l, SG.new { pair := some ((v : Int), (p : Int)) } = .ok σ ∧ σ.sequence (some n) = .ok l := by
  obtain ⟨t, hk⟩ : ∃ t, (revColexPerms n)[p]? = some t := ⟨_, List.getElem?_eq_getElem (by rw [length_revColexPerms]; exact hp)⟩
  obtain ⟨ht, p0, _, q2, q3, q4, q5, q, p1, p5⟩ := perm_at hk
  obtain ⟨q', p1', p2, p3, _⟩ := C15_rank_of_int p
  rw [p1] at p1'
  cases p1'
  obtain ⟨b, b1, b2, _⟩ := C26_intval_only v
  obtain ⟨σ, σ1, σ2, σ3, _⟩ := SG.C31_valneg b q p2 p3
  have hb1 : BV.mk { intval := some (v : Int) } = .ok b := b1
  have hσ : SG.new { pair := some ((v : Int), (p : Int)) } = .ok σ := by
    rw [← σ1]
    simp [SG.new, SG.convNeg, SG.convPerm, SG.usePair, SG.useNegIndex, SG.usePermIndex, bind, Except.bind, Except.map, hb1, p1]
  obtain ⟨c1, _, _, _, c2, _⟩ := SG.C31_sequence σ σ2
  refine ⟨σ, _, hσ, c1 n ((c2 n).2 fun i hi => ?_)⟩
  have hfix : q.get i = i := by rw [p5]; exact q2.wf.finite_bounded q3 (by omega)
  rw [σ3, b2, hfix, Nat.testBit_lt_two_pow (lt_of_lt_of_le hv (Nat.pow_le_pow_right (by decide) hi))]
  rfl

theorem pretty_pow {b : Binv} {n : Nat} (hn : n ≤ 6) (h : b.length = 2 ^ n) : ∃ s, b.pretty = .ok s := (C57_pretty b).1.2 ⟨n, hn, h⟩

theorem cellString_spec {f g : Boolf} {R : Partitioned} {M : ClanMatrix} {sym : Nat → Nat} (h : MatrixSpec f R M sym) {E : EcPart} {lab : Nat → Boolf} {κ : Nat → Nat}
    {r : Nat → Nat → Nat} (C : ClanData f E lab κ r) (hf : Reach f) (hA : f.atomvals = List.range f.adicity) (hval : f.valency = f.adicity) (ha : f.adicity ≤ 5)
    (hg : Reach g) (hm : SignedRenamed f.adicity f g) (had : g.adicity = f.adicity) {a z s : Nat} (hz : g.zhe = .ok z) (hs : M.sizes.get? a = some s) (hs0 : 0 < s) (last : Bool) :
    ∃ c : WikiCell, cellString f M a z last = .ok (c.text f.adicity) ∧ c.zhe = z ∧ c.colspan = (M.lcm / (s : Int)).toNat ∧ c.last = last ∧ CellOf f g M c := by
  have huniq : ∀ g', Reach g' → g'.zhe = .ok z → g' = g := by
    intro g' h1 h2
    obtain ⟨g0, _, _, _, g4⟩ := C50_zhe_index z
    rw [g4 g' h1 h2, g4 g hg hz]
  have hnew : new { zhe := some (z : Int) } = .ok g := by
    obtain ⟨g0, g1, _, _, g4⟩ := C50_zhe_index z
    rw [g4 g hg hz]
    exact g1
  have hone : ∃ k p v, Turns f g k p v := by
    obtain ⟨i, hi, rfl⟩ := (C.member hf hA hg).1 hm
    exact ⟨_, _, _, (C.turns i hi _ hg).1 rfl⟩
  obtain ⟨k0, p0, v0, ht0⟩ := hone
  obtain ⟨T, T1, T2, T3, T4⟩ := h.triples.list (k := z) ⟨(k0, p0, v0), g, hg, hz, ht0⟩
  obtain ⟨K, K1, K2, K3, K4⟩ := h.keynegs.list (k := z) ⟨k0, g, p0, v0, hg, hz, ht0⟩
  obtain ⟨V, V1, V2, V3, V4⟩ := h.valnegs.list (k := z) ⟨v0, g, k0, p0, hg, hz, ht0⟩
  have hT : ∀ k p v, (k, p, v) ∈ T ↔ Turns f g k p v := by
    intro k p v
    rw [T4]
    exact ⟨fun ⟨g', h1, h2, h3⟩ => huniq g' h1 h2 ▸ h3, fun h => ⟨g, hg, hz, h⟩⟩
  have hK : ∀ k, k ∈ K ↔ ∃ p v, Turns f g k p v := by
    intro k
    rw [K4]
    exact ⟨fun ⟨g', p, v, h1, h2, h3⟩ => ⟨p, v, huniq g' h1 h2 ▸ h3⟩, fun ⟨p, v, h⟩ => ⟨g, p, v, hg, hz, h⟩⟩
  have hV : ∀ v, v ∈ V ↔ ∃ k p, Turns f g k p v := by
    intro v
    rw [V4]
    exact ⟨fun ⟨g', k, p, h1, h2, h3⟩ => ⟨k, p, huniq g' h1 h2 ▸ h3⟩, fun ⟨k, p, h⟩ => ⟨g, k, p, hg, hz, h⟩⟩
  obtain ⟨perms, hperms⟩ : ∃ perms : Nat → Nat → List Nat, perms = fun k v => (T.filter fun t => decide (t.1 = k ∧ t.2.2 = v)).map fun t => t.2.1 := ⟨_, rfl⟩
  have hpasc : ∀ k v, (perms k v).Pairwise (· < ·) := by
    intro k v
    rw [hperms]
    rw [List.pairwise_map, List.pairwise_filter]
    refine T2.imp ?_
    rintro ⟨k1, p1, v1⟩ ⟨k2, p2, v2⟩ hlt h1 h2
    simp only [decide_eq_true_eq] at h1 h2
    obtain ⟨rfl, rfl⟩ := h1
    obtain ⟨rfl, rfl⟩ := h2
    rcases hlt with h | ⟨_, h | ⟨_, h⟩⟩
    · exact absurd h (lt_irrefl _)
    · exact h
    · exact absurd h (lt_irrefl _)
  have hpmem : ∀ k v p, p ∈ perms k v ↔ (k, p, v) ∈ T := by
    intro k v p
    rw [hperms]
    simp only [List.mem_map, List.mem_filter, decide_eq_true_eq]
    constructor
    · rintro ⟨⟨k', p', v'⟩, ⟨h1, rfl, rfl⟩, rfl⟩
      exact h1
    · intro h
      exact ⟨_, ⟨h, rfl, rfl⟩, rfl⟩
  have hseq : ∀ v p, ∃ l, ∀ k, Turns f g k p v → ∃ σ, SG.new { pair := some ((v : Int), (p : Int)) } = .ok σ ∧ σ.sequence (some f.adicity) = .ok l := by
    intro v p
    by_cases hvp : v < 2 ^ f.adicity ∧ p < Nat.factorial f.adicity
    · obtain ⟨σ, l, h1, h2⟩ := pair_sequence hvp.1 hvp.2
      exact ⟨l, fun k _ => ⟨σ, h1, h2⟩⟩
    · exact ⟨[], fun k hk => absurd ⟨hk.1, hk.2.1⟩ hvp⟩
  choose seq hseq using hseq
  obtain ⟨K', V', q1, q2, q3, q4, q5⟩ := indexTriplesToValnegHtml_spec (keynegs := K) (valnegs := V) (triples := T) (arity := f.adicity) (perms := perms) (seq := seq) K3 V3
    (K2.imp ne_of_lt) (V2.imp ne_of_lt) (fun ⟨k, p, v⟩ ht => ⟨(hK k).2 ⟨p, v, (hT k p v).1 ht⟩, (hV v).2 ⟨k, p, (hT k p v).1 ht⟩⟩) hpasc (fun k _ v _ p => hpmem k v p)
    (fun k p v ht => hseq v p k ((hT k p v).1 ht))
  -- the digits
  have hzlt : z < 2 ^ 2 ^ f.adicity := by
    have hz' := hz
    rw [zhe_Z hg.canon.toSound (le_of_eq had)] at hz'
    cases hz'
    exact Z_lt g f.adicity
  obtain ⟨b, b1, b2, b3⟩ := (C26_intval_length z (2 ^ f.adicity) (Nat.two_pow_pos _)).1 hzlt
  obtain ⟨zd, hzd⟩ := pretty_pow (by omega : f.adicity ≤ 6) b2
  have hbv : b.vector = (List.range (2 ^ f.adicity)).map z.testBit := by
    apply List.ext_getElem?
    intro i
    by_cases hi : i < 2 ^ f.adicity
    · have h1 : i < b.vector.length := by rw [show b.vector.length = b.length from rfl, b2]; exact hi
      rw [List.getElem?_map, List.getElem?_range hi, List.getElem?_eq_getElem h1, Option.map_some, ← b3, intval_eq, testBit_valB, List.getD_eq_getElem?_getD, List.getElem?_eq_getElem h1]
      rfl
    · rw [List.getElem?_eq_none (by rw [show b.vector.length = b.length from rfl, b2]; omega), List.getElem?_eq_none (by simpa using hi)]
  have htt := tt_eq hg.canon.toSound
  rw [had] at htt
  obtain ⟨td, htd⟩ := pretty_pow (b := ⟨(List.range (2 ^ f.adicity)).map fun k => g.eval k.testBit⟩) (by omega : f.adicity ≤ 6) (by simp [Binv.length])
  refine ⟨⟨(M.lcm / (s : Int)).toNat, last, decide ((0, 0, 0) ∈ T), decide (z ∈ M.familyReps), decide (z ∈ M.factionReps), z, zd, td, K', V', perms, seq⟩, ?_, rfl, rfl, rfl, ?_⟩
  · have hb1 : BV.mk { intval := some (z : Int), length := some ((2 ^ f.valency : Nat) : Int) } = .ok b := by rw [hval]; exact b1
    have hc : 0 ≤ M.lcm / (s : Int) := Int.ediv_nonneg (le_of_lt h.lcm.1) (by omega)
    have hstr : intStr (M.lcm / (s : Int)) = natStr (M.lcm / (s : Int)).toNat := by
      unfold intStr
      rw [if_neg (by omega)]
    have hclasses : ∀ x y : Bool, cellClasses x y =
        (if x then (if y then "class=\"border base\"".toList else "class=\"border\"".toList) else if y then "class=\"base\"".toList else []) := by
      intro x y
      cases x <;> cases y <;> rfl
    unfold cellString WikiCell.text
    rw [hb1]
    simp only [bind, Except.bind]
    rw [hzd]
    simp only
    rw [hnew]
    simp only
    rw [htt]
    simp only
    rw [htd]
    simp only [dictGet, T1, K1, V1, hs]
    rw [if_neg (by omega)]
    rw [q5]
    simp only [pure, Except.pure, hstr, hclasses, vennString, decide_eq_true_eq]
  · refine ⟨hg, hz, ⟨b, hbv, hzd⟩, ⟨_, by simp [Binv.length], ?_, htd⟩, ?_, decide_eq_true_iff, decide_eq_true_iff, q2, ?_, q4, ?_, hpasc, ?_, ?_⟩
    · intro i hi
      rw [getItem_eq hg.canon.toSound]
      simp [hi]
    · simp only [decide_eq_true_eq]
      rw [hT, turns_zero_iff C hf hg]
    · intro k
      rw [q1.mem_iff, hK]
    · intro v
      rw [q3.mem_iff, hV]
    · intro k v p
      rw [hpmem, hT]
    · intro k p v ht
      exact hseq v p k ht

end Verif.BF
