import Verif.Boolf.Model31
import Verif.Boolf.Props70
import Verif.Boolf.Props81
import Verif.SigPerm.FromSchoute

/-!
# Property C160: the printed list of segments
-/

namespace Verif.BF
open Verif.Py Verif.BV Verif.P Verif.W Verif.SP
open Verif.A hiding Mat

/-! ## specification -/

/-- one tuple is before another: it is less at the last place where they differ -/
def ColexLt {α : Type} [LT α] (x y : List α) : Prop := ∃ (i : Nat) (a b : α), x[i]? = some a ∧ y[i]? = some b ∧ a < b ∧ ∀ j > i, x[j]? = y[j]?

/-- the entry for a segment: its signs, and in ascending order the spots of the face -/
def ShowsSegment (n : Nat) (v : List Int) (e : List Char × List Nat) : Prop :=
  e.1 = v.map signChar ∧ e.2.Pairwise (· < ·) ∧ ∀ s, s ∈ e.2 ↔ Adjoins n v s

/-- the line for some free places and for segments: the names of the places, separated by commas, and the entries of the segments -/
def ShowsPattern (n : Nat) (names : List (List Char)) (b : List Nat × List (List Int)) (line : List Char × Dict (List Char) (List Nat)) : Prop :=
  line.1 = List.intercalate [','] (b.1.map (nameOf names)) ∧ List.Forall₂ (ShowsSegment n) b.2 line.2

/-- The lines for the dimension `d`, where the faces are those in the set `S`: there is one line for each set of free places of such a face.
It shows all faces with these free places.  The lines and the entries of a line are ordered by the last difference. -/
def ShowsDimension (n : Nat) (S : Nat → Prop) (names : List (List Char)) (d : Nat) (lines : List (List Char × Dict (List Char) (List Nat))) : Prop :=
  ∃ B : List (List Nat × List (List Int)), List.Forall₂ (ShowsPattern n names) B lines ∧ (B.map Prod.fst).Pairwise ColexLt ∧
    (∀ b ∈ B, b.1.Pairwise (· < ·) ∧ b.2 ≠ [] ∧ b.2.Pairwise ColexLt ∧ ∀ v, v ∈ b.2 ↔ FullFace n S v ∧ v.count 0 = d ∧ ∀ k, v[k]? = some 0 ↔ k ∈ b.1) ∧
    ∀ v, FullFace n S v → v.count 0 = d → ∃ b ∈ B, v ∈ b.2

/-! ## lemmas -/

theorem groupByPattern_spec : ∀ (vs : List (List Int)) (d : Dict (List Nat) (List (List Int))), d.keys.Nodup →
    (groupByPattern vs d).keys.Nodup ∧ (∀ p, p ∈ (groupByPattern vs d).keys ↔ p ∈ d.keys ∨ ∃ v ∈ vs, zeroKeys v = p) ∧
      ∀ p, ((groupByPattern vs d).get? p).getD [] = (d.get? p).getD [] ++ vs.filter fun v => zeroKeys v = p
  | [], d, hd => ⟨hd, by simp [groupByPattern], by simp [groupByPattern]⟩
  | v :: vs, d, hd => by
    obtain ⟨h1, h2, h3⟩ := groupByPattern_spec vs (d.set (zeroKeys v) ((d.get? (zeroKeys v)).getD [] ++ [v])) (Dict.nodup_keys_set hd _ _)
    refine ⟨h1, fun p => ?_, fun p => ?_⟩
    · rw [groupByPattern, h2, Dict.mem_keys_iff, Dict.mem_keys_iff, Dict.get?_set]
      by_cases h : zeroKeys v = p
      · simp [h]
      · simp [h]
    · rw [groupByPattern, h3, Dict.get?_set]
      by_cases h : zeroKeys v = p
      · simp [h]
      · simp [h]

theorem sortedColex_strict {α : Type} [LinearOrder α] {l : List (List α)} {n : Nat} (hl : ∀ x ∈ l, x.length = n) (hn : l.Nodup) :
    (sortedColex l).Pairwise ColexLt := by
  have h1 := (C124_perm l).nodup_iff.2 hn
  refine ((C124_order l n hl).and h1).imp ?_
  rintro x y ⟨h | h, h'⟩
  · exact absurd h h'
  · exact h

theorem zeroKeys_asc (v : List Int) : (zeroKeys v).Pairwise (· < ·) := by
  unfold zeroKeys
  rw [List.pairwise_map]
  apply List.Pairwise.filter
  have : ((v.zipIdx 0).map Prod.snd).Pairwise (· < ·) := by
    rw [List.zipIdx_map_snd]
    exact List.pairwise_lt_range'
  rwa [List.pairwise_map] at this

theorem ternaryString {n : Nat} {v : List Int} (hv : Ternary n v) : balancedTernaryVectorToString v = .ok (v.map signChar) := by
  apply mapM_ok
  intro x hx
  rcases hv.2 x hx with rfl | rfl | rfl <;> rfl

theorem signChar_inj {n : Nat} {v w : List Int} (hv : Ternary n v) (hw : Ternary n w) (h : v.map signChar = w.map signChar) : v = w := by
  apply List.ext_getElem (by rw [hv.1, hw.1])
  intro i h1 h2
  have h3 := congrArg (fun l => l[i]?) h
  simp only [List.getElem?_map, List.getElem?_eq_getElem h1, List.getElem?_eq_getElem h2, Option.map_some, Option.some.injEq] at h3
  rcases hv.2 _ (List.getElem_mem h1) with e | e | e <;> rcases hw.2 _ (List.getElem_mem h2) with e' | e' | e' <;> rw [e, e'] at h3 ⊢ <;> exact absurd h3 (by decide)

theorem vectorLine_ok {n : Nat} {v : List Int} (hv : Ternary n v) : ∃ e, vectorLine v = .ok e ∧ ShowsSegment n v e := by
  obtain ⟨L, h1, h2, h3, _⟩ := C118_segment_to_adjacent_spots hv
  refine ⟨(v.map signChar, L), ?_, rfl, h2, h3⟩
  unfold vectorLine
  rw [ternaryString hv, h1]
  rfl

theorem vectorLines_ok {n : Nat} {l : List (List Int)} (hl : ∀ v ∈ l, Ternary n v) (hn : l.Nodup) :
    ∃ d : Dict (List Char) (List Nat), l.mapM vectorLine = .ok d ∧ Dict.ofPairs d = d ∧ List.Forall₂ (ShowsSegment n) l d := by
  choose! g hg1 hg2 using fun v (hv : v ∈ l) => vectorLine_ok (hl v hv)
  refine ⟨l.map g, mapM_ok hg1, ?_, ?_⟩
  · apply Dict.ofPairs_of_nodup
    have : Dict.keys (l.map g) = l.map fun v => v.map signChar := by
      rw [Dict.keys, List.map_map]
      exact List.map_congr_left fun v hv => (hg2 v hv).1
    rw [this]
    exact List.Nodup.map_on (fun v hv w hw h => signChar_inj (hl v hv) (hl w hw) h) hn
  · rw [List.forall₂_map_right_iff, List.forall₂_same]
    exact hg2

/-- the names of the free places -/
theorem names_ok {names : List (List Char)} {pattern : List Nat} (h : ∀ k ∈ pattern, k < names.length) :
    (pattern.mapM fun key => item (names.map Name.str) key) = .ok (pattern.map fun k => Name.str (nameOf names k)) ∧
      (pattern.map fun k => Name.str (nameOf names k)).mapM Name.string = .ok (pattern.map (nameOf names)) := by
  constructor
  · apply mapM_ok
    intro k hk
    have := h k hk
    unfold item nameOf
    rw [List.getElem?_map, List.getElem?_eq_getElem this, List.getD_eq_getElem?_getD, List.getElem?_eq_getElem this]
    rfl
  · rw [mapM_ok (g := fun x => (match ofLex x with | .inl _ => [] | .inr s => s)), List.map_map]
    · rfl
    · intro x hx
      obtain ⟨k, _, rfl⟩ := List.mem_map.1 hx
      rfl

/-- all lines of one dimension -/
theorem dimensionLines_ok {n d : Nat} {S : Nat → Prop} {names : List (List Char)} (hn : n ≤ names.length) {D : Dict (List Int) Segment} (hD : D.keys.Nodup)
    (hS : ∀ v, v ∈ D.keys ↔ FullFace n S v ∧ v.count 0 = d) :
    ∃ lines, dimensionLines (names.map Name.str) (d, D) = .ok (d, lines) ∧ ShowsDimension n S names d lines := by
  obtain ⟨g1, g2, g3⟩ := groupByPattern_spec D.keys [] (by simp [Dict.keys])
  have g2' : ∀ p, p ∈ (groupByPattern D.keys []).keys ↔ ∃ v ∈ D.keys, zeroKeys v = p := by
    intro p; rw [g2]; simp [Dict.keys]
  have g3' : ∀ p, ((groupByPattern D.keys []).get? p).getD [] = D.keys.filter fun v => zeroKeys v = p := by
    intro p; rw [g3]; simp [Dict.get?]
  obtain ⟨G, hG⟩ : ∃ G, G = groupByPattern D.keys [] := ⟨_, rfl⟩
  rw [← hG] at g1 g2' g3'
  have key : ∀ p ∈ sortedColex G.keys, ∃ line, patternLine (names.map Name.str) G p = .ok line ∧
      ShowsPattern n names (p, sortedColex (D.keys.filter fun v => zeroKeys v = p)) line := by
    intro p hp
    obtain ⟨v, hv, rfl⟩ := (g2' p).1 ((C124_perm _).mem_iff.1 hp)
    have hlt : ∀ k ∈ zeroKeys v, k < names.length := by
      intro k hk
      have := (List.getElem?_eq_some_iff.1 (mem_zeroKeys.1 hk)).1
      rw [((hS v).1 hv).1.1.1] at this
      omega
    obtain ⟨n1, n2⟩ := names_ok hlt
    have hper := C124_perm (D.keys.filter fun w => zeroKeys w = zeroKeys v)
    obtain ⟨e, e1, e2, e3⟩ := vectorLines_ok (n := n) (l := sortedColex (D.keys.filter fun w => zeroKeys w = zeroKeys v))
      (fun w hw => ((hS w).1 (List.mem_of_mem_filter (hper.mem_iff.1 hw))).1.1) (hper.nodup_iff.2 (hD.filter _))
    refine ⟨(List.intercalate [','] ((zeroKeys v).map (nameOf names)), e), ?_, rfl, e3⟩
    unfold patternLine
    rw [n1]
    simp only [bind, Except.bind, pure, Except.pure]
    rw [n2]
    simp only
    rw [g3', e1]
    simp only
    rw [e2]
  choose! line hl1 hl2 using key
  refine ⟨(sortedColex G.keys).map line, ?_, (sortedColex G.keys).map fun p => (p, sortedColex (D.keys.filter fun v => zeroKeys v = p)), ?_, ?_, ?_, ?_⟩
  · unfold dimensionLines
    dsimp only
    rw [← hG, mapM_ok hl1]
    rfl
  · rw [List.forall₂_map_left_iff, List.forall₂_map_right_iff, List.forall₂_same]
    exact hl2
  · rw [List.map_map]
    have : (Prod.fst ∘ fun p => (p, sortedColex (D.keys.filter fun v => zeroKeys v = p))) = id := rfl
    rw [this, List.map_id]
    refine sortedColex_strict (n := d) ?_ g1
    intro p hp
    obtain ⟨v, hv, rfl⟩ := (g2' p).1 hp
    rw [length_zeroKeys, ((hS v).1 hv).2]
  · intro b hb
    obtain ⟨p, hp, rfl⟩ := List.mem_map.1 hb
    obtain ⟨v, hv, rfl⟩ := (g2' p).1 ((C124_perm _).mem_iff.1 hp)
    have hper := C124_perm (D.keys.filter fun w => zeroKeys w = zeroKeys v)
    refine ⟨zeroKeys_asc v, ?_, ?_, ?_⟩
    · exact List.ne_nil_of_mem (hper.mem_iff.2 (List.mem_filter.2 ⟨hv, by simp⟩))
    · exact sortedColex_strict (n := n) (fun w hw => ((hS w).1 (List.mem_of_mem_filter hw)).1.1.1) (hD.filter _)
    · intro w
      rw [hper.mem_iff, List.mem_filter, hS, decide_eq_true_eq, and_assoc]
      refine and_congr_right fun _ => and_congr_right fun _ => ?_
      constructor
      · intro h k
        rw [← mem_zeroKeys, h]
      · intro h
        refine List.Perm.eq_of_pairwise (le := (· < ·)) (fun a b _ _ h1 h2 => by omega) (zeroKeys_asc w) (zeroKeys_asc v) ?_
        refine (List.perm_ext_iff_of_nodup (nodup_zeroKeys w) (nodup_zeroKeys v)).2 fun k => ?_
        rw [mem_zeroKeys]
        exact h k
  · intro v hv hd
    have hm := (hS v).2 ⟨hv, hd⟩
    refine ⟨_, List.mem_map.2 ⟨zeroKeys v, ?_, rfl⟩, ?_⟩
    · exact (C124_perm _).mem_iff.2 ((g2' _).2 ⟨v, hm, rfl⟩)
    · exact (C124_perm _).mem_iff.2 (List.mem_filter.2 ⟨hm, by simp⟩)

/-- reading dimensions adds empty dictionaries only -/
theorem read_spec {n : Nat} {S : Nat → Prop} : ∀ (reads : List Nat) (c : Collection), c.segments.keys.Nodup →
    (∀ d D, (d, D) ∈ c.segments → D.keys.Nodup ∧ ∀ v, v ∈ D.keys ↔ FullFace n S v ∧ v.count 0 = d) →
    (∀ v, FullFace n S v → v.count 0 ∈ c.segments.keys) →
    (reads.foldl Collection.read c).segments.keys.Nodup ∧
    (∀ d D, (d, D) ∈ (reads.foldl Collection.read c).segments → D.keys.Nodup ∧ ∀ v, v ∈ D.keys ↔ FullFace n S v ∧ v.count 0 = d) ∧
    ∀ d, d ∈ (reads.foldl Collection.read c).segments.keys ↔ d ∈ reads ∨ d ∈ c.segments.keys
  | [], c, h1, h2, _ => ⟨h1, h2, by simp⟩
  | r :: reads, c, h1, h2, h3 => by
    rw [List.foldl_cons]
    have hr : (c.read r).segments = if r ∈ c.segments.keys then c.segments else c.segments ++ [(r, [])] := by
      unfold Collection.read
      split
      · next h => rw [if_pos (Dict.mem_keys_iff.2 ⟨_, h⟩)]
      · next h =>
        rw [Dict.get?_eq_none] at h
        rw [if_neg h]
        exact Dict.set_of_not_mem _ h
    by_cases h : r ∈ c.segments.keys
    · rw [if_pos h] at hr
      obtain ⟨a, b, e⟩ := read_spec (n := n) (S := S) reads (c.read r) (by rwa [hr]) (by rwa [hr]) (by rwa [hr])
      refine ⟨a, b, fun d => ?_⟩
      rw [e, hr, List.mem_cons]
      constructor
      · rintro (h | h) <;> simp [h]
      · rintro ((rfl | h') | h')
        · exact .inr h
        · exact .inl h'
        · exact .inr h'
    · rw [if_neg h] at hr
      have hk : (c.read r).segments.keys = c.segments.keys ++ [r] := by rw [hr, Dict.keys_append]; rfl
      obtain ⟨a, b, e⟩ := read_spec (n := n) (S := S) reads (c.read r)
        (by rw [hk, List.nodup_append]; exact ⟨h1, by simp, by rintro x hx y hy rfl; simp at hy; exact h (hy ▸ hx)⟩)
        (by
          intro d D hD
          rw [hr, List.mem_append] at hD
          rcases hD with hD | hD
          · exact h2 d D hD
          · simp only [List.mem_singleton, Prod.mk.injEq] at hD
            obtain ⟨rfl, rfl⟩ := hD
            refine ⟨by simp [Dict.keys], fun v => ?_⟩
            constructor
            · intro hv; simp [Dict.keys] at hv
            · rintro ⟨hv, rfl⟩
              exact absurd (h3 v hv) h)
        (by intro v hv; rw [hk]; exact List.mem_append_left _ (h3 v hv))
      refine ⟨a, b, fun d => ?_⟩
      rw [e, hk, List.mem_append, List.mem_singleton, List.mem_cons]
      tauto

/-- the dictionaries of the collection -/
theorem collection_dicts {f : Boolf} (hf : Reach f) {fuel : Nat} (hfuel : 3 ^ f.valency ≤ fuel) {order : List (List Nat) → List (List Nat)} (ho : ∀ l, (order l).Perm l) (reads : List Nat) :
    ∃ c, f.collection fuel order = .ok c ∧ (reads.foldl Collection.read c).segments.keys.Nodup ∧
    (∀ d D, (d, D) ∈ (reads.foldl Collection.read c).segments → D.keys.Nodup ∧ ∀ v, v ∈ D.keys ↔ FullFace f.valency (· ∈ f.fullspots) v ∧ v.count 0 = d) ∧
    ∀ d, (d ∈ reads ∨ ∃ v, FullFace f.valency (· ∈ f.fullspots) v ∧ v.count 0 = d) → d ∈ (reads.foldl Collection.read c).segments.keys := by
  obtain ⟨c, h1, h2, h3⟩ := collection_spec hf.canon.toSound hf.canon.val hfuel ho
  have hkeys : ∀ v, FullFace f.valency (· ∈ f.fullspots) v → v.count 0 ∈ c.segments.keys := by
    intro v hv
    obtain ⟨D, h, _⟩ := inquire_iff.1 ((h3 v).2 hv)
    exact Dict.mem_keys_iff.2 ⟨D, h⟩
  have hdict : ∀ d D, (d, D) ∈ c.segments → D.keys.Nodup ∧ ∀ v, v ∈ D.keys ↔ FullFace f.valency (· ∈ f.fullspots) v ∧ v.count 0 = d := by
    intro d D hD
    have hg := Dict.mem_get? h2.keys hD
    refine ⟨(h2.inner d D hg).1, fun v => ?_⟩
    rw [← h3, inquire_iff]
    constructor
    · intro hv
      obtain ⟨e, he, rfl⟩ := List.mem_map.1 hv
      have := ((h2.inner d D hg).2 e he).2.1
      exact ⟨⟨D, by rw [this]; exact hg, hv⟩, this⟩
    · rintro ⟨⟨D', h, hv⟩, rfl⟩
      rw [hg] at h
      cases h
      exact hv
  obtain ⟨r1, r2, r3⟩ := read_spec (n := f.valency) (S := (· ∈ f.fullspots)) reads c h2.keys hdict hkeys
  refine ⟨c, h1, r1, r2, fun d hd => (r3 d).2 ?_⟩
  rcases hd with hd | ⟨v, hv, rfl⟩
  · exact .inl hd
  · exact .inr (hkeys v hv)

theorem num_string (i : Int) : (Name.num i).string = .error .typeError := rfl

/-- the lines of one dimension, if all names are numbers -/
theorem dimensionLines_num {n d : Nat} {S : Nat → Prop} {nums : List Int} (hn : n ≤ nums.length) {D : Dict (List Int) Segment} (hD : D.keys.Nodup)
    (hS : ∀ v, v ∈ D.keys ↔ FullFace n S v ∧ v.count 0 = d) :
    (d ≠ 0 → (∃ v, FullFace n S v ∧ v.count 0 = d) → dimensionLines (nums.map Name.num) (d, D) = .error .typeError) ∧
    (d = 0 ∨ (¬ ∃ v, FullFace n S v ∧ v.count 0 = d) → ∃ y, dimensionLines (nums.map Name.num) (d, D) = .ok y) := by
  obtain ⟨_, g2, _⟩ := groupByPattern_spec D.keys [] (by simp [Dict.keys])
  have g2' : ∀ p, p ∈ (groupByPattern D.keys []).keys ↔ ∃ v ∈ D.keys, zeroKeys v = p := by
    intro p; rw [g2]; simp [Dict.keys]
  constructor
  · intro hd ⟨v, hv⟩
    have herr : ∀ p ∈ sortedColex (groupByPattern D.keys []).keys, patternLine (nums.map Name.num) (groupByPattern D.keys []) p = .error .typeError := by
      intro p hp
      obtain ⟨w, hw, rfl⟩ := (g2' p).1 ((C124_perm _).mem_iff.1 hp)
      have hlen := length_zeroKeys w
      rw [((hS w).1 hw).2] at hlen
      have hlt : ∀ k ∈ zeroKeys w, k < nums.length := by
        intro k hk
        have := (List.getElem?_eq_some_iff.1 (mem_zeroKeys.1 hk)).1
        rw [((hS w).1 hw).1.1.1] at this
        omega
      have h1 : ((zeroKeys w).mapM fun key => item (nums.map Name.num) key) = .ok ((zeroKeys w).map fun k => Name.num (nums.getD k 0)) := by
        apply mapM_ok
        intro k hk
        have := hlt k hk
        unfold item
        rw [List.getElem?_map, List.getElem?_eq_getElem this, List.getD_eq_getElem?_getD, List.getElem?_eq_getElem this]
        rfl
      unfold patternLine
      rw [h1]
      cases hz : zeroKeys w with
      | nil => rw [hz] at hlen; simp at hlen; omega
      | cons k rest => rfl
    unfold dimensionLines
    dsimp only
    rw [BF.mapM_error (e := .typeError) ?_ herr]
    · rfl
    · exact List.ne_nil_of_mem ((C124_perm _).mem_iff.2 ((g2' (zeroKeys v)).2 ⟨v, (hS v).2 hv, rfl⟩))
  · intro hd
    have hok : ∀ p ∈ sortedColex (groupByPattern D.keys []).keys, p = [] := by
      intro p hp
      obtain ⟨w, hw, rfl⟩ := (g2' p).1 ((C124_perm _).mem_iff.1 hp)
      rcases hd with rfl | hd
      · have hlen := length_zeroKeys w
        rw [((hS w).1 hw).2] at hlen
        exact List.length_eq_zero_iff.1 hlen
      · exact absurd ⟨w, (hS w).1 hw⟩ hd
    obtain ⟨lines, h1, _⟩ := dimensionLines_ok (names := nums.map fun _ => []) (by rwa [List.length_map]) hD hS
    refine ⟨(d, lines), ?_⟩
    rw [← h1]
    unfold dimensionLines
    dsimp only
    have : (sortedColex (groupByPattern D.keys []).keys).mapM (patternLine (nums.map Name.num) (groupByPattern D.keys [])) =
        (sortedColex (groupByPattern D.keys []).keys).mapM (patternLine ((nums.map fun _ => []).map Name.str) (groupByPattern D.keys [])) := by
      refine SG.mapM_congr_left _ fun p hp => ?_
      rw [hok p hp]
      rfl
    rw [this]

/-! ## C160 -/

/-- **C160.** `print_segments` shows each face of the hypercube, all of whose vertices are true, exactly once: under its dimension, and in the line with the names of its free places.
Beside the signs of the face are the numbers of its vertices.  That the dimensions `reads` were read before, adds no lines. -/
theorem C160_print {f : Boolf} (hf : Reach f) {fuel : Nat} (hfuel : 3 ^ f.valency ≤ fuel) {order : List (List Nat) → List (List Nat)} (ho : ∀ l, (order l).Perm l)
    (reads : List Nat) (names : List (List Char)) (hn : names.dedup.length = f.atomvals.length) :
    ∃ c out, f.collection fuel order = .ok c ∧ (reads.foldl Collection.read c).printSegments f (some (names.map Name.str)) = .ok out ∧
      (out.map Prod.fst).Nodup ∧ (∀ d, (d ∈ reads ∨ ∃ v, FullFace f.valency (· ∈ f.fullspots) v ∧ v.count 0 = d) → d ∈ out.map Prod.fst) ∧
      ∀ p ∈ out, ShowsDimension f.valency (· ∈ f.fullspots) names p.1 p.2 := by
  obtain ⟨c, h1, h2, h3, h4⟩ := collection_dicts hf hfuel ho reads
  obtain ⟨c1, c2⟩ := choose_ok hf.canon.toSound (names := names.map Name.str) (by rw [dedup_map_length str_inj, hn])
  rw [List.length_map] at c2
  have hval := hf.canon.val
  have key : ∀ p ∈ (reads.foldl Collection.read c).segments, ∃ y, dimensionLines (names.map Name.str) p = .ok y ∧ y.1 = p.1 ∧
      ShowsDimension f.valency (· ∈ f.fullspots) names p.1 y.2 := by
    rintro ⟨d, D⟩ hp
    obtain ⟨a, b⟩ := h3 d D hp
    obtain ⟨lines, l1, l2⟩ := dimensionLines_ok (names := names) (by omega) a b
    exact ⟨_, l1, rfl, l2⟩
  choose! g hg1 hg2 hg3 using key
  have hfst : ((reads.foldl Collection.read c).segments.map g).map Prod.fst = (reads.foldl Collection.read c).segments.keys := by
    rw [List.map_map]
    exact List.map_congr_left hg2
  refine ⟨c, (reads.foldl Collection.read c).segments.map g, h1, ?_, ?_, ?_, ?_⟩
  · unfold Collection.printSegments
    rw [c1]
    exact mapM_ok hg1
  · rw [hfst]; exact h2
  · rw [hfst]; exact h4
  · intro p hp
    obtain ⟨q, hq, rfl⟩ := List.mem_map.1 hp
    rw [hg2 q hq]
    exact hg3 q hq

/-- **C160.** Without names the letters of the atoms are used.  With an atom above 25 there is `TypeError`, exactly if there is an edge; for constants there is `ValueError`.
A wrong number of different names raises `ArgMismatchError`. -/
theorem C160_names {f : Boolf} (hf : Reach f) {fuel : Nat} (hfuel : 3 ^ f.valency ≤ fuel) {order : List (List Nat) → List (List Nat)} (ho : ∀ l, (order l).Perm l) (reads : List Nat) :
    ∃ c, f.collection fuel order = .ok c ∧
      (∀ names : List Name, names.dedup.length ≠ f.atomvals.length → (reads.foldl Collection.read c).printSegments f (some names) = .error .argMismatch) ∧
      (f.atomvals = [] → (reads.foldl Collection.read c).printSegments f = .error .valueError) ∧
      (f.atomvals ≠ [] → (∀ x ∈ f.atomvals, x < 26) →
        (reads.foldl Collection.read c).printSegments f = (reads.foldl Collection.read c).printSegments f (some ((f.atomvals.map fun x => [Char.ofNat (65 + x)]).map Name.str)) ∧
        (f.atomvals.map fun x => [Char.ofNat (65 + x)]).dedup.length = f.atomvals.length) ∧
      ((∃ x ∈ f.atomvals, 26 ≤ x) →
        ((∃ v, FullFace f.valency (· ∈ f.fullspots) v ∧ v.count 0 ≠ 0) → (reads.foldl Collection.read c).printSegments f = .error .typeError) ∧
        ((∀ v, FullFace f.valency (· ∈ f.fullspots) v → v.count 0 = 0) → ∃ out, (reads.foldl Collection.read c).printSegments f = .ok out)) := by
  obtain ⟨c, h1, h2, h3, h4⟩ := collection_dicts hf hfuel ho reads
  have hval := hf.canon.val
  refine ⟨c, h1, ?_, ?_, ?_, ?_⟩
  · intro names hn
    unfold Collection.printSegments Boolf.chooseNames
    simp only
    rw [hval, if_neg hn]
    rfl
  · intro h0
    unfold Collection.printSegments Boolf.chooseNames
    simp only
    rw [h0]
    rfl
  · intro h0 h
    obtain ⟨a1, a2⟩ := (chooseNames_none hf.canon.toSound h0).1 h
    refine ⟨?_, a2⟩
    unfold Collection.printSegments
    rw [a1]
  · intro h
    have h0 : f.atomvals ≠ [] := by
      obtain ⟨x, hx, _⟩ := h
      exact List.ne_nil_of_mem hx
    obtain ⟨a1, a2⟩ := (chooseNames_none hf.canon.toSound h0).2 h
    have a3 := (choose_ok hf.canon.toSound (names := (f.atomvals.map Int.ofNat).map Name.num) (by rw [dedup_map_length num_inj, a2])).1
    have hlen : f.valency ≤ (f.atomvals.map Int.ofNat).length := by rw [List.length_map, hval]
    constructor
    · rintro ⟨v, hv, hv0⟩
      unfold Collection.printSegments
      rw [a1, a3]
      refine P.mapM_error ?_ ?_
      · rintro ⟨d, D⟩ hp
        obtain ⟨a, b⟩ := h3 d D hp
        obtain ⟨n1, n2⟩ := dimensionLines_num hlen a b
        by_cases hd : d = 0
        · exact .inl (n2 (.inl hd))
        · by_cases hex : ∃ v, FullFace f.valency (· ∈ f.fullspots) v ∧ v.count 0 = d
          · exact .inr (n1 hd hex)
          · exact .inl (n2 (.inr hex))
      · obtain ⟨D, hD⟩ := Dict.mem_keys_iff.1 (h4 _ (.inr ⟨v, hv, rfl⟩))
        have hm := Dict.get?_mem hD
        obtain ⟨a, b⟩ := h3 _ D hm
        exact ⟨_, hm, (dimensionLines_num hlen a b).1 hv0 ⟨v, hv, rfl⟩⟩
    · intro hno
      have key : ∀ p ∈ (reads.foldl Collection.read c).segments, ∃ y, dimensionLines ((f.atomvals.map Int.ofNat).map Name.num) p = .ok y := by
        rintro ⟨d, D⟩ hp
        obtain ⟨a, b⟩ := h3 d D hp
        refine (dimensionLines_num hlen a b).2 ?_
        by_cases hd : d = 0
        · exact .inl hd
        · refine .inr ?_
          rintro ⟨v, hv, rfl⟩
          exact hd (hno v hv)
      choose! g hg using key
      refine ⟨(reads.foldl Collection.read c).segments.map g, ?_⟩
      unfold Collection.printSegments
      rw [a1, a3]
      exact mapM_ok hg

/-- **C160.** The string of a segment of the collection shows the signs of its vector. -/
theorem C160_string {n : Nat} {v : List Int} {s : Segment} (h : Segment.new n v = .ok s) : s.string = .ok (v.map signChar) := by
  unfold Segment.new at h
  split at h
  · next h1 =>
    split at h
    · next h2 =>
      cases h
      exact ternaryString (n := n) ⟨h1, h2⟩
    · cases h
  · cases h

set_option synthInstance.maxSize 1000 in
example : ∃ f, newTT (.str "0111".toList) = .ok f ∧ Reach f ∧ 3 ^ f.valency ≤ 9 ∧ f.atomvals = [0, 1] ∧
    ((f.collection 9 id).bind fun c => (c.read 0 |>.read 1 |>.read 2).printSegments f) =
      .ok [(0, [([], [(['+', '−'], [1]), (['−', '+'], [2]), (['+', '+'], [3])])]), (1, [(['A'], [(['0', '+'], [2, 3])]), (['B'], [(['+', '0'], [1, 3])])]), (2, [])] := by
  obtain ⟨_, e1, e2⟩ := newTT_explicit "0111".toList [false, true, true, true] [0, 1] 2 (by decide) (by decide) (by decide) (by intro n; simp; omega) (by decide) (by decide)
  exact ⟨_, e1 (by decide), e2.reach, by decide, by decide, by decide +kernel⟩

end Verif.BF
