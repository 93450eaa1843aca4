import Verif.Boolf.Model26
import Verif.Boolf.Props80
import Verif.Boolf.Props27
import Verif.Boolf.Props28
import Verif.Boolf.Props30

/-!
# Property C150: names in place of the keys of atoms
-/

namespace Verif.BF
open Verif.Py Verif.BV Verif.P Verif.W Verif.SP
open Verif.A hiding Mat

/-! ## specification -/

/-- the name of an atom that is a string -/
def nameOf (names : List (List Char)) (k : Nat) : List Char := names.getD k []

/-- for each place the sign of the digit and the name, separated by spaces -/
def signedLabel (names : List (List Char)) (molecule : List Nat) (label : List Char) : List Char :=
  List.intercalate [' '] ((label.zip molecule).map fun p => (if p.1 = '1' then '+' else '−') :: nameOf names p.2)

/-- the sign of an entry of a vector -/
def signChar (z : Int) : Char := if z = 0 then '0' else if 0 < z then '+' else '−'

/-- a potential core with names -/
def namedCore (names : List (List Char)) (c : Core) : PrettyCore where
  fixed := c.fixed.flatMap (nameOf names)
  free := c.free.flatMap (nameOf names)
  determined := List.intercalate [' '] (c.determined.map fun p => nameOf names p.1 ++ [signChar p.2])
  vectors := c.vectors.map fun v => v.map signChar

/-! ## lemmas -/

theorem choose_ok {f : Boolf} (hf : Sound f) {names : List Name} (hn : names.dedup.length = f.atomvals.length) :
    f.chooseNames (some names) = .ok names ∧ f.atomvals.length ≤ names.length := by
  refine ⟨?_, hn ▸ (List.dedup_sublist names).length_le⟩
  unfold Boolf.chooseNames
  simp only
  rw [hf.val, if_pos hn]

theorem str_inj : Function.Injective Name.str := fun a b h => by
  unfold Name.str at h
  simpa using h

theorem num_inj : Function.Injective Name.num := fun a b h => by
  unfold Name.num at h
  simpa using h

theorem dedup_map_length {α β : Type} [DecidableEq α] [DecidableEq β] {g : α → β} (hg : Function.Injective g) (l : List α) : (l.map g).dedup.length = l.dedup.length := by
  rw [List.dedup_map_of_injective hg, List.length_map]

theorem string_str (s : List Char) : (Name.str s).string = .ok s := rfl

theorem string_num (i : Int) : (Name.num i).string = .error .typeError := rfl

theorem item_str {names : List (List Char)} {k : Nat} (h : k < names.length) : item (names.map Name.str) k = .ok (Name.str (nameOf names k)) := by
  rw [item_getD (by rwa [List.length_map]) (Name.str []), nameOf, List.getD_map]

/-- strings of fixed lengths are determined by their concatenation -/
theorem intercalate_inj {ws ws' : List (List Char)} (h : List.Forall₂ (fun a b => a.length = b.length) ws ws')
    (he : List.intercalate [' '] ws = List.intercalate [' '] ws') : ws = ws' := by
  induction h with
  | nil => rfl
  | @cons a b l l' hab hl ih =>
    cases hl with
    | nil =>
      simp only [List.intercalate, List.intersperse, List.flatten_cons, List.flatten_nil, List.append_nil] at he
      rw [he]
    | @cons c d m m' hcd hm =>
      simp only [List.intercalate, List.intersperse, List.flatten_cons] at he ih
      obtain ⟨e1, e2⟩ := List.append_inj he hab
      rw [e1, ih (List.append_cancel_left e2)]

theorem signedLabel_inj (names : List (List Char)) (l : List Nat) {c c' : List Bool} (hc : c.length = l.length) (hc' : c'.length = l.length)
    (h : signedLabel names l (c.map fun b => if b then '1' else '0') = signedLabel names l (c'.map fun b => if b then '1' else '0')) : c = c' := by
  have h2 := intercalate_inj (by
    rw [List.forall₂_iff_get]
    refine ⟨by simp [hc, hc'], fun i h1 h2 => ?_⟩
    simp) h
  clear h
  induction l generalizing c c' with
  | nil => rw [List.length_eq_zero_iff.1 hc, List.length_eq_zero_iff.1 hc']
  | cons k l ih =>
    match c, c', hc, hc' with
    | b :: c, b' :: c', hc, hc' =>
      simp only [List.map_cons, List.zip_cons_cons, List.cons.injEq] at h2
      have hb : ∀ b b' : Bool, (if (if b = true then '1' else '0') = '1' then '+' else '−') = (if (if b' = true then '1' else '0') = '1' then '+' else '−') → b = b' := by
        decide
      rw [hb _ _ h2.1.1, ih (by simpa using hc) (by simpa using hc') h2.2]

theorem labelPretty_eq {names : List (List Char)} {l : List Nat} {label : List Char} (h : label.length = l.length) :
    labelPretty (l.map fun k => Name.str (nameOf names k)) label = .ok (signedLabel names l label) := by
  unfold labelPretty signedLabel
  have key : ∀ (label : List Char) (pre l : List Nat), label.length = l.length →
      (label.zipIdx pre.length).mapM (fun p : Char × Nat => (do
        let parenthesis := if p.1 = '1' then '+' else '−'
        let atomname ← item ((pre ++ l).map fun k => Name.str (nameOf names k)) p.2
        return parenthesis :: (← atomname.string) : Except Err (List Char))) =
      .ok ((label.zip l).map fun p => (if p.1 = '1' then '+' else '−') :: nameOf names p.2) := by
    intro label
    induction label with
    | nil => intro pre l _; rfl
    | cons c label ih =>
      intro pre l h
      match l, h with
      | k :: l, h =>
        have hi : item ((pre ++ k :: l).map fun k => Name.str (nameOf names k)) pre.length = .ok (Name.str (nameOf names k)) := by
          unfold item
          simp
        have := ih (pre ++ [k]) l (by simpa using h)
        rw [List.length_append, List.length_singleton, List.append_assoc, List.singleton_append] at this
        rw [List.zipIdx_cons, List.mapM_cons, this]
        simp only [bind, Except.bind, pure, Except.pure]
        rw [hi]
        simp only [string_str, List.zip_cons_cons, List.map_cons]
  have := key label [] l h
  simp only [List.nil_append, List.length_nil] at this
  rw [this]
  rfl

theorem molecule_eq {names : List (List Char)} {l : List Nat} (hl : ∀ k ∈ l, k < names.length) :
    (l.mapM fun k => item (names.map Name.str) k) = .ok (l.map fun k => Name.str (nameOf names k)) :=
  mapM_ok fun k hk => item_str (hl k hk)

/-- what C90 tells about `hypersplits_detailed` -/
theorem detailed_facts {f : Boolf} (hf : Reach f) {d : Dict Nat (List (List Nat × Dict (List Char) (List Nat)))} (hd : f.hypersplitsDetailed = .ok d) :
    (∃ m, d.keys = (List.range (m + 1)).map (· + 1)) ∧ d.keys.Nodup ∧ f.isBlightless = .ok true ∧
    (∀ n E, (n, E) ∈ d → ∀ l blocks, (l, blocks) ∈ E → l.length = n ∧ (∀ k ∈ l, k < f.atomvals.length) ∧ blocks.keys.Nodup ∧
      (∀ label, label ∈ blocks.keys ↔ ∃ c : List Bool, c.length = n ∧ label = c.map fun b => if b then '1' else '0')) ∧
    ∀ k < f.atomvals.length, ∃ E, (1, E) ∈ d ∧ ∃ b, ([k], b) ∈ E := by
  obtain ⟨e, e1, _⟩ := blightless_iff hf.canon
  obtain ⟨a1, a2⟩ := C90_detailed f hf
  cases e with
  | false => rw [a1 e1] at hd; cases hd
  | true =>
    obtain ⟨h, h1, _⟩ := hypersplits_spec hf.canon e1
    obtain ⟨d', b1, b2, b3⟩ := a2 h h1
    rw [hd] at b1; cases b1
    obtain ⟨⟨m, k1⟩, _, E1, k2, k3⟩ := C90_keys f hf h h1
    have hn : h.keys.Nodup := by
      rw [k1]
      exact List.Nodup.map (fun a b h => by simpa using h) List.nodup_range
    have hn' : d.keys.Nodup := b2 ▸ hn
    refine ⟨⟨m, b2.trans k1⟩, hn', e1, ?_, ?_⟩
    · intro n E' hE l blocks hl
      have hg := (Dict.get?_iff_mem hn').2 hE
      have hnk : n ∈ h.keys := b2 ▸ Dict.mem_keys_iff.2 ⟨E', hg⟩
      obtain ⟨E, hEg⟩ := Dict.mem_keys_iff.1 hnk
      obtain ⟨E2, c1, c2, c3⟩ := b3 n E hEg
      rw [hg] at c1; cases c1
      obtain ⟨q1, q2, _⟩ := c3 l blocks hl
      have hlE : l ∈ E.map Prod.fst := c2 ▸ List.mem_map.2 ⟨_, hl, rfl⟩
      obtain ⟨⟨l', p⟩, hp, rfl⟩ := List.mem_map.1 hlE
      have hn1 : 1 ≤ n := by
        rw [k1] at hnk
        obtain ⟨i, _, rfl⟩ := List.mem_map.1 hnk
        omega
      obtain ⟨_, r2, _⟩ := C90_hypersplits f hf h h1 n hn1
      rw [hEg] at r2
      obtain ⟨_, r4, r5, _⟩ := (r2 l').1 ⟨p, hp⟩
      exact ⟨r4, r5, q1, q2⟩
    · intro k hk
      obtain ⟨E', c1, c2, _⟩ := b3 1 E1 k2
      obtain ⟨p, hp⟩ := (k3 k).2 hk
      have : [k] ∈ E'.map Prod.fst := c2 ▸ List.mem_map.2 ⟨_, hp, rfl⟩
      obtain ⟨⟨l', b⟩, hb, rfl⟩ := List.mem_map.1 this
      exact ⟨E', Dict.get?_mem c1, b, hb⟩

/-! ## the property -/

/-- **C150.** `bundles_pretty` has the bundles with names in place of the places of atoms. -/
theorem C150_bundles (f : Boolf) (hf : Reach f) (names : List Name) (hn : names.dedup.length = f.atomvals.length) :
    (∀ e, f.bundles = .error e → f.bundlesPretty (some names) = .error e) ∧
    ∀ l, f.bundles = .ok l → f.bundlesPretty (some names) = .ok (l.map fun B => B.map fun k => names.getD k.toNat (Name.num 0)) ∧
      ∀ B ∈ l, ∀ k ∈ B, 0 ≤ k ∧ k.toNat < names.length := by
  obtain ⟨c1, c2⟩ := choose_ok hf.canon.toSound hn
  constructor
  · intro e he
    unfold Boolf.bundlesPretty
    rw [c1, he]
    rfl
  · intro l hl
    have hB : ∀ B ∈ l, ∀ k ∈ B, 0 ≤ k ∧ k.toNat < names.length := by
      intro B hB k hk
      obtain ⟨b1, b2⟩ := C88_bundles f hf
      obtain ⟨b, _, hb, _⟩ := C83_bloatless_blotless f hf
      cases b with
      | false => rw [(b1 hb).1] at hl; cases hl
      | true =>
        obtain ⟨l', _, d1, _, _, d2, _⟩ := b2 hb
        rw [hl] at d1; cases d1
        obtain ⟨_, _, _, d3⟩ := (d2 B).1 hB
        obtain ⟨j, hj, rfl, _⟩ := (d3 k).1 hk
        exact ⟨by omega, by rw [Int.toNat_natCast]; omega⟩
    refine ⟨?_, hB⟩
    unfold Boolf.bundlesPretty
    rw [c1, hl]
    simp only [bind, Except.bind]
    refine mapM_ok fun B hB' => mapM_ok fun k hk => ?_
    obtain ⟨h0, h1⟩ := hB B hB' k hk
    unfold itemInt
    dsimp only
    rw [if_neg (not_lt.2 h0), if_pos h0, item_getD h1 (Name.num 0)]

/-- **C150.** `fullspot_atoms_pretty` has for each full spot the names of the atoms it is in, in the order of the atoms. -/
theorem C150_fullspot_atoms (f : Boolf) (hf : Reach f) (names : List Name) (hn : names.dedup.length = f.atomvals.length) :
    ∃ d, f.fullspotAtomsPretty (some names) = .ok d ∧ d.keys = f.fullspots ∧
      ∀ s ∈ f.fullspots, d.get? s = some (((List.range f.atomvals.length).filter fun k => s.testBit k).map fun k => names.getD k (Name.num 0)) := by
  have hs := hf.canon.toSound
  obtain ⟨c1, c2⟩ := choose_ok hs hn
  have hlt : ∀ s ∈ f.fullspots, s < 2 ^ f.atomvals.length := fun s h => fullspots_lt hs h
  have hbits : ∀ s ∈ f.fullspots, bitsOf s = (List.range f.atomvals.length).filter fun k => s.testBit k := by
    intro s h
    refine asc_ext (bitsOf_asc s) (List.pairwise_lt_range.filter _) fun k => ?_
    rw [mem_bitsOf, List.mem_filter, List.mem_range]
    refine ⟨fun hk => ⟨?_, hk⟩, fun hk => hk.2⟩
    by_contra hc
    rw [Nat.testBit_lt_two_pow (lt_of_lt_of_le (hlt s h) (Nat.pow_le_pow_right (by omega) (by omega)))] at hk
    cases hk
  have hnd : f.fullspots.Nodup := (fullspots_asc f).imp fun h => Nat.ne_of_lt h
  have hrun : f.fullspotAtomsPretty (some names) = .ok (f.fullspots.map fun s => (s, (bitsOf s).map fun k => names.getD k (Name.num 0))) := by
    unfold Boolf.fullspotAtomsPretty
    rw [c1, fullspotAtoms_eq]
    simp only [bind, Except.bind, pure, Except.pure]
    rw [mapM_ok (g := fun p : Nat × List Nat => (p.1, p.2.map fun k => names.getD k (Name.num 0)))]
    · simp only [List.map_map]
      rw [Dict.ofPairs_of_nodup]
      · rfl
      · unfold Dict.keys
        rw [List.map_map]
        exact (List.map_id f.fullspots).symm ▸ hnd
    · intro p hp
      obtain ⟨s, h, rfl⟩ := List.mem_map.1 hp
      simp only
      rw [mapM_ok (g := fun k => names.getD k (Name.num 0))]
      intro k hk
      apply item_getD
      rw [hbits s h, List.mem_filter, List.mem_range] at hk
      omega
  have hk : Dict.keys (f.fullspots.map fun s => (s, (bitsOf s).map fun k => names.getD k (Name.num 0))) = f.fullspots := by
    unfold Dict.keys
    rw [List.map_map]
    exact List.map_id _
  refine ⟨_, hrun, hk, fun s h => ?_⟩
  rw [Dict.get?_iff_mem (hk.symm ▸ hnd)]
  exact List.mem_map.2 ⟨s, h, by rw [hbits s h]⟩

/-- **C150.** `fullspotlinks_by_atom_pretty` raises an exception for all arguments: the metribute it should show does not exist. -/
theorem C150_fullspotlinks (f : Boolf) (hf : Reach f) (names : Option (List Name)) : ∃ e, f.fullspotlinksByAtomPretty names = .error e ∧
    (e = .attributeError ∨ (e = .argMismatch ∧ ∃ l, names = some l ∧ l.dedup.length ≠ f.atomvals.length) ∨ (e = .valueError ∧ names = none ∧ f.atomvals = [])) := by
  have hs := hf.canon.toSound
  unfold Boolf.fullspotlinksByAtomPretty Boolf.chooseNames
  cases names with
  | some l =>
    simp only
    rw [hs.val]
    by_cases h : l.dedup.length = f.atomvals.length
    · rw [if_pos h]; exact ⟨_, rfl, Or.inl rfl⟩
    · rw [if_neg h]; exact ⟨_, rfl, Or.inr (Or.inl ⟨rfl, l, rfl, h⟩)⟩
  | none =>
    by_cases h0 : f.atomvals = []
    · refine ⟨.valueError, by rw [h0]; rfl, Or.inr (Or.inr ⟨rfl, rfl, h0⟩)⟩
    · obtain ⟨a1, a2⟩ := C149_alphabet f.atomvals h0
      by_cases h : ∀ i ∈ f.atomvals, i < 26
      · rw [a1 h]; exact ⟨_, rfl, Or.inl rfl⟩
      · push Not at h
        rw [a2 h]; exact ⟨_, rfl, Or.inl rfl⟩

/-- **C150.** `hypersplits_pretty` for names that are strings has the same blocks as `hypersplits_detailed`.  The label of a block has the sign and the name for each
atom of the hypersplit.  Different blocks have different labels, whatever the names are. -/
theorem C150_hypersplits (f : Boolf) (hf : Reach f) (names : List (List Char)) (hn : names.dedup.length = f.atomvals.length) :
    (∀ e, f.hypersplitsDetailed = .error e → f.hypersplitsPretty (some (names.map Name.str)) = .error e) ∧
    ∀ d, f.hypersplitsDetailed = .ok d →
      f.hypersplitsPretty (some (names.map Name.str)) = .ok (d.map fun p => (p.1, p.2.map fun e => e.2.map fun b => (signedLabel names e.1 b.1, b.2))) ∧
      ∀ p ∈ d, ∀ e ∈ p.2, (e.2.map fun b => signedLabel names e.1 b.1).Nodup := by
  obtain ⟨c1, c2⟩ := choose_ok hf.canon.toSound (names := names.map Name.str) (by rw [dedup_map_length str_inj, hn])
  rw [List.length_map] at c2
  constructor
  · intro e he
    unfold Boolf.hypersplitsPretty
    rw [c1, he]
    rfl
  · intro d hd
    obtain ⟨_, hk, _, hE, _⟩ := detailed_facts hf hd
    have hnd : ∀ p ∈ d, ∀ e ∈ p.2, (e.2.map fun b => signedLabel names e.1 b.1).Nodup := by
      rintro ⟨n, E⟩ hp ⟨l, blocks⟩ he
      obtain ⟨h1, h2, h3, h4⟩ := hE n E hp l blocks he
      have : (blocks.map fun b => signedLabel names l b.1) = blocks.keys.map (signedLabel names l) := by
        unfold Dict.keys; rw [List.map_map]; rfl
      simp only
      rw [this]
      refine List.Nodup.map_on ?_ h3
      intro x hx y hy hxy
      obtain ⟨c, hc, rfl⟩ := (h4 x).1 hx
      obtain ⟨c', hc', rfl⟩ := (h4 y).1 hy
      rw [signedLabel_inj names l (by omega) (by omega) hxy]
    refine ⟨?_, hnd⟩
    unfold Boolf.hypersplitsPretty
    rw [c1, hd]
    simp only [bind, Except.bind, pure, Except.pure]
    rw [mapM_ok (g := fun p : Nat × List (List Nat × Dict (List Char) (List Nat)) => (p.1, p.2.map fun e => e.2.map fun b => (signedLabel names e.1 b.1, b.2)))]
    · simp only
      rw [Dict.ofPairs_of_nodup]
      simpa only [Dict.keys, List.map_map, Function.comp_def] using hk
    · rintro ⟨n, E⟩ hp
      simp only
      rw [mapM_ok (g := fun e : List Nat × Dict (List Char) (List Nat) => e.2.map fun b => (signedLabel names e.1 b.1, b.2))]
      rintro ⟨l, blocks⟩ he
      obtain ⟨h1, h2, h3, h4⟩ := hE n E hp l blocks he
      have hl : ∀ k ∈ l, k < names.length := fun k hk => lt_of_lt_of_le (h2 k hk) c2
      unfold hypersplitPretty
      rw [molecule_eq hl]
      simp only [bind, Except.bind, pure, Except.pure]
      rw [mapM_ok (g := fun b : List Char × List Nat => (signedLabel names l b.1, b.2))]
      · simp only
        rw [Dict.ofPairs_of_nodup]
        have := hnd _ hp _ he
        simpa only [Dict.keys, List.map_map, Function.comp_def] using this
      · rintro ⟨label, block⟩ hb
        obtain ⟨c, hc, hc'⟩ := (h4 label).1 (List.mem_map.2 ⟨_, hb, rfl⟩)
        rw [labelPretty_eq (by rw [hc', List.length_map]; omega)]

/-- what C90 tells about `hypersplits_potential_cores` -/
theorem cores_facts {f : Boolf} (hf : Reach f) {d : Dict Nat (List Core)} (hd : f.hypersplitsPotentialCores = .ok d) :
    (∃ m, d.keys = (List.range (m + 1)).map (· + 1)) ∧ d.keys.Nodup ∧
    (∀ n E, (n, E) ∈ d → ∀ c ∈ E, c.fixed.length = n ∧ (∀ k ∈ c.fixed, k < f.atomvals.length) ∧ CoreSpec f.fullspots f.atomvals.length c) ∧
    ∀ k < f.atomvals.length, ∃ E, (1, E) ∈ d ∧ ∃ c ∈ E, c.fixed = [k] := by
  obtain ⟨e, e1, _⟩ := blightless_iff hf.canon
  obtain ⟨a1, a2⟩ := C90_potential_cores f hf
  cases e with
  | false => rw [a1 e1] at hd; cases hd
  | true =>
    obtain ⟨h, h1, _⟩ := hypersplits_spec hf.canon e1
    obtain ⟨d', b1, b2, b3⟩ := a2 h h1
    rw [hd] at b1; cases b1
    obtain ⟨⟨m, k1⟩, _, E1, k2, k3⟩ := C90_keys f hf h h1
    have hn : h.keys.Nodup := by
      rw [k1]
      exact List.Nodup.map (fun a b h => by simpa using h) List.nodup_range
    have hn' : d.keys.Nodup := b2 ▸ hn
    refine ⟨⟨m, b2.trans k1⟩, hn', ?_, ?_⟩
    · intro n E' hE c hc
      have hg := (Dict.get?_iff_mem hn').2 hE
      have hnk : n ∈ h.keys := b2 ▸ Dict.mem_keys_iff.2 ⟨E', hg⟩
      obtain ⟨E, hEg⟩ := Dict.mem_keys_iff.1 hnk
      obtain ⟨E2, c1, c2, c3⟩ := b3 n E hEg
      rw [hg] at c1; cases c1
      have hlE : c.fixed ∈ E.map Prod.fst := c2 ▸ List.mem_map.2 ⟨_, hc, rfl⟩
      obtain ⟨⟨l', p⟩, hp, he⟩ := List.mem_map.1 hlE
      have hn1 : 1 ≤ n := by
        rw [k1] at hnk
        obtain ⟨i, _, rfl⟩ := List.mem_map.1 hnk
        omega
      obtain ⟨_, r2, _⟩ := C90_hypersplits f hf h h1 n hn1
      rw [hEg] at r2
      obtain ⟨_, r4, r5, _⟩ := (r2 l').1 ⟨p, hp⟩
      exact ⟨by rw [← he]; exact r4, fun k hk => r5 k (by rw [← he] at hk; exact hk), c3 c hc⟩
    · intro k hk
      obtain ⟨E', c1, c2, _⟩ := b3 1 E1 k2
      obtain ⟨p, hp⟩ := (k3 k).2 hk
      have : [k] ∈ E'.map Core.fixed := c2 ▸ List.mem_map.2 ⟨_, hp, rfl⟩
      obtain ⟨c, hc, he⟩ := List.mem_map.1 this
      exact ⟨E', Dict.get?_mem c1, c, hc, he⟩

theorem joinNames_eq {names : List (List Char)} {l : List Nat} (hl : ∀ k ∈ l, k < names.length) :
    joinNames (names.map Name.str) l = .ok (l.flatMap (nameOf names)) := by
  unfold joinNames
  rw [molecule_eq hl]
  simp only [bind, Except.bind, pure, Except.pure]
  have : (l.map fun k => Name.str (nameOf names k)).mapM Name.string = .ok (l.map (nameOf names)) := by
    clear hl
    induction l with
    | nil => rfl
    | cons k l ih =>
      rw [List.map_cons, List.mapM_cons, string_str, ih]
      rfl
  rw [this]
  simp only [List.flatMap]

theorem ternary_eq {v : List Int} (h : ∀ z ∈ v, z = 0 ∨ z = 1 ∨ z = -1) : balancedTernaryVectorToString v = .ok (v.map signChar) := by
  unfold balancedTernaryVectorToString
  refine mapM_ok fun z hz => ?_
  rcases h z hz with rfl | rfl | rfl <;> rfl

/-- **C150.** `hypersplits_potential_cores_pretty` for names that are strings.  The fixed and the free atoms are shown by their names, the determined ones by name
and sign, and the vectors by signs. -/
theorem C150_cores (f : Boolf) (hf : Reach f) (names : List (List Char)) (hn : names.dedup.length = f.atomvals.length) :
    (∀ e, f.hypersplitsPotentialCores = .error e → f.coresPretty (some (names.map Name.str)) = .error e) ∧
    ∀ d, f.hypersplitsPotentialCores = .ok d → f.coresPretty (some (names.map Name.str)) = .ok (d.map fun p => (p.1, p.2.map (namedCore names))) := by
  obtain ⟨c1, c2⟩ := choose_ok hf.canon.toSound (names := names.map Name.str) (by rw [dedup_map_length str_inj, hn])
  rw [List.length_map] at c2
  constructor
  · intro e he
    unfold Boolf.coresPretty
    rw [c1, he]
    rfl
  · intro d hd
    obtain ⟨_, hk, hE, _⟩ := cores_facts hf hd
    unfold Boolf.coresPretty
    rw [c1, hd]
    simp only [bind, Except.bind, pure, Except.pure]
    rw [mapM_ok (g := fun p : Nat × List Core => (p.1, p.2.map (namedCore names)))]
    · simp only
      rw [Dict.ofPairs_of_nodup]
      simpa only [Dict.keys, List.map_map, Function.comp_def] using hk
    · rintro ⟨n, E⟩ hp
      simp only
      rw [mapM_ok (g := namedCore names)]
      intro c hc
      obtain ⟨_, h1, h2⟩ := hE n E hp c hc
      have hdet : ∀ p ∈ c.determined, p.1 < f.atomvals.length ∧ (p.2 = 1 ∨ p.2 = -1) := by
        rintro ⟨k, z⟩ hp
        have hg := (Dict.get?_iff_mem h2.keys).2 hp
        rcases h2.values k z hg with rfl | rfl
        · exact ⟨((h2.positive k).1 hg).1, Or.inl rfl⟩
        · exact ⟨((h2.negative k).1 hg).1, Or.inr rfl⟩
      have hvec : ∀ v ∈ c.vectors, ∀ z ∈ v, z = 0 ∨ z = 1 ∨ z = -1 := by
        intro v hv z hz
        obtain ⟨v1, v2⟩ := (h2.vectors v).1 hv
        obtain ⟨k, hk⟩ := List.getElem?_of_mem hz
        have hlt := getElem?_some_lt hk
        obtain ⟨w1, w2, w3, w4⟩ := v2 k (by omega)
        rw [hk] at w1 w2 w3 w4
        by_cases hkf : k ∈ c.fixed
        · exact Or.inl (Option.some.inj (w1 hkf))
        · by_cases hfr : k ∈ c.free
          · exact (w4 hfr).elim (fun h => Or.inr (Or.inl (Option.some.inj h))) fun h => Or.inr (Or.inr (Option.some.inj h))
          · rw [h2.free_mem] at hfr
            push Not at hfr
            obtain ⟨a, ha, w, hs⟩ := hfr (by omega) hkf
            cases w with
            | true => exact Or.inr (Or.inl (Option.some.inj (w2 hkf ⟨a, ha, hs⟩)))
            | false => exact Or.inr (Or.inr (Option.some.inj (w3 hkf ⟨a, ha, hs⟩)))
      unfold corePretty
      rw [joinNames_eq (fun k hk => lt_of_lt_of_le (h1 k hk) c2), joinNames_eq (fun k hk => lt_of_lt_of_le ((h2.free_mem k).1 hk).1 c2)]
      simp only [bind, Except.bind, pure, Except.pure]
      rw [mapM_ok (g := fun p : Nat × Int => nameOf names p.1 ++ [signChar p.2])]
      · simp only
        rw [mapM_ok (g := fun v : List Int => v.map signChar) (fun v hv => ternary_eq (hvec v hv))]
        rfl
      · rintro ⟨k, z⟩ hp
        obtain ⟨d1, d2⟩ := hdet _ hp
        unfold determinedPretty
        rw [item_str (lt_of_lt_of_le d1 c2)]
        simp only [bind, Except.bind, pure, Except.pure]
        rcases d2 with d2 | d2 <;> (simp only at d2; subst d2; rfl)

theorem mapM_head_error {α β : Type} {g : α → Except Err β} {l : List α} {e : Err} (hl : l ≠ []) (h : ∀ a ∈ l, g a = .error e) : l.mapM g = .error e := by
  obtain ⟨a, l, rfl⟩ := List.exists_cons_of_ne_nil hl
  rw [List.mapM_cons, h a (List.mem_cons_self ..)]
  rfl

/-- **C150.** Both methods for hypersplits raise `TypeError` for names that are numbers, unless the function is constant. -/
theorem C150_numbers (f : Boolf) (hf : Reach f) (names : List Int) (hn : names.dedup.length = f.atomvals.length) (h0 : f.atomvals ≠ []) (hb : f.isBlightless = .ok true) :
    f.hypersplitsPretty (some (names.map Name.num)) = .error .typeError ∧ f.coresPretty (some (names.map Name.num)) = .error .typeError := by
  obtain ⟨c1, c2⟩ := choose_ok hf.canon.toSound (names := names.map Name.num) (by rw [dedup_map_length num_inj, hn])
  rw [List.length_map] at c2
  have hpos : 0 < f.atomvals.length := List.length_pos_iff.2 h0
  obtain ⟨h, h1, _⟩ := hypersplits_spec hf.canon hb
  obtain ⟨d, d1, _⟩ := (C90_detailed f hf).2 h h1
  obtain ⟨dc, dc1, _⟩ := (C90_potential_cores f hf).2 h h1
  have hmol : ∀ l : List Nat, (∀ k ∈ l, k < names.length) → (l.mapM fun k => item (names.map Name.num) k) = .ok (l.map fun k => Name.num (names.getD k 0)) := by
    intro l hl
    refine mapM_ok fun k hk => ?_
    rw [item_getD (by rw [List.length_map]; exact hl k hk) (Name.num 0), List.getD_map]
  constructor
  · obtain ⟨⟨m, k1⟩, k2, _, k3, k4⟩ := detailed_facts hf d1
    unfold Boolf.hypersplitsPretty
    rw [c1, d1]
    simp only [bind, Except.bind, pure, Except.pure]
    obtain ⟨E, hE, _⟩ := k4 0 hpos
    cases d with
    | nil => cases hE
    | cons p d =>
      obtain ⟨n, E'⟩ := p
      have hn1 : n = 1 := by
        rw [Dict.keys_cons, List.range_succ_eq_map, List.map_cons] at k1
        exact (List.cons.inj k1).1
      subst hn1
      have hEE : E' = E := by
        have g1 := (Dict.get?_iff_mem k2).2 hE
        rw [Dict.get?_cons, if_pos rfl] at g1
        exact Option.some.inj g1
      subst hEE
      rw [List.mapM_cons]
      simp only [bind, Except.bind, pure, Except.pure]
      rw [mapM_head_error (e := .typeError)]
      · obtain ⟨E2, hE2, b2, hb2⟩ := k4 0 hpos
        have g1 := (Dict.get?_iff_mem k2).2 hE2
        rw [Dict.get?_cons, if_pos rfl] at g1
        cases g1
        exact List.ne_nil_of_mem hb2
      · rintro ⟨l, blocks⟩ he
        obtain ⟨q1, q2, _, q4⟩ := k3 1 E' (List.mem_cons_self ..) l blocks he
        unfold hypersplitPretty
        rw [hmol l (fun k hk => lt_of_lt_of_le (q2 k hk) c2)]
        simp only [bind, Except.bind, pure, Except.pure]
        rw [mapM_head_error (e := .typeError)]
        · intro hc
          have := (q4 ['0']).2 ⟨[false], rfl, rfl⟩
          rw [hc] at this
          cases this
        · rintro ⟨label, block⟩ hl
          obtain ⟨c, hc, hc'⟩ := (q4 label).1 (List.mem_map.2 ⟨_, hl, rfl⟩)
          subst hc'
          match c, hc, l, q1 with
          | [x], _, [k], _ => rfl
  · obtain ⟨⟨m, k1⟩, k2, k3, k4⟩ := cores_facts hf dc1
    unfold Boolf.coresPretty
    rw [c1, dc1]
    simp only [bind, Except.bind, pure, Except.pure]
    obtain ⟨E, hE, c, hc, hcf⟩ := k4 0 hpos
    cases dc with
    | nil => cases hE
    | cons p d =>
      obtain ⟨n, E'⟩ := p
      have hn1 : n = 1 := by
        rw [Dict.keys_cons, List.range_succ_eq_map, List.map_cons] at k1
        exact (List.cons.inj k1).1
      subst hn1
      have hEE : E' = E := by
        have g1 := (Dict.get?_iff_mem k2).2 hE
        rw [Dict.get?_cons, if_pos rfl] at g1
        exact Option.some.inj g1
      subst hEE
      rw [List.mapM_cons]
      simp only [bind, Except.bind, pure, Except.pure]
      rw [mapM_head_error (e := .typeError) (List.ne_nil_of_mem hc)]
      intro c' hc'
      obtain ⟨q1, q2, _⟩ := k3 1 E' (List.mem_cons_self ..) c' hc'
      unfold corePretty joinNames
      rw [hmol c'.fixed (fun k hk => lt_of_lt_of_le (q2 k hk) c2)]
      match c'.fixed, q1 with
      | [k], _ => rfl

theorem chooseNames_none {f : Boolf} (hf : Sound f) (h0 : f.atomvals ≠ []) :
    ((∀ x ∈ f.atomvals, x < 26) → f.chooseNames none = f.chooseNames (some ((f.atomvals.map fun x => [Char.ofNat (65 + x)]).map Name.str)) ∧
      (f.atomvals.map fun x => [Char.ofNat (65 + x)]).dedup.length = f.atomvals.length) ∧
    ((∃ x ∈ f.atomvals, 26 ≤ x) → f.chooseNames none = f.chooseNames (some ((f.atomvals.map Int.ofNat).map Name.num)) ∧
      (f.atomvals.map Int.ofNat).dedup.length = f.atomvals.length) := by
  have hnd : f.atomvals.Nodup := hf.asc.imp fun h => Nat.ne_of_lt h
  constructor
  · intro h
    have hn : (f.atomvals.map fun x => [Char.ofNat (65 + x)]).dedup.length = f.atomvals.length := by
      rw [List.Nodup.dedup, List.length_map]
      refine List.Nodup.map_on ?_ hnd
      intro x hx y hy e
      have hc : ∀ x < 26, ∀ y < 26, Char.ofNat (65 + x) = Char.ofNat (65 + y) → x = y := by decide +kernel
      exact hc x (h x hx) y (h y hy) (List.cons.inj e).1
    refine ⟨?_, hn⟩
    rw [(choose_ok hf (names := (f.atomvals.map fun x => [Char.ofNat (65 + x)]).map Name.str) (by rw [dedup_map_length str_inj, hn])).1]
    unfold Boolf.chooseNames
    simp only
    rw [(C149_alphabet f.atomvals h0).1 h, List.map_map]
    rfl
  · intro h
    have hn : (f.atomvals.map Int.ofNat).dedup.length = f.atomvals.length := by
      rw [List.Nodup.dedup, List.length_map]
      exact hnd.map fun a b h => by simpa using h
    refine ⟨?_, hn⟩
    rw [(choose_ok hf (names := (f.atomvals.map Int.ofNat).map Name.num) (by rw [dedup_map_length num_inj, hn])).1]
    unfold Boolf.chooseNames
    simp only
    rw [(C149_alphabet f.atomvals h0).2 h, List.map_map]
    rfl

/-- **C150.** Without an argument both methods for hypersplits use letters.  If an atom is above 25, they raise `TypeError`. -/
theorem C150_default (f : Boolf) (hf : Reach f) (h0 : f.atomvals ≠ []) :
    ((∀ x ∈ f.atomvals, x < 26) →
      f.hypersplitsPretty none = f.hypersplitsPretty (some ((f.atomvals.map fun x => [Char.ofNat (65 + x)]).map Name.str)) ∧
      f.coresPretty none = f.coresPretty (some ((f.atomvals.map fun x => [Char.ofNat (65 + x)]).map Name.str)) ∧
      (f.atomvals.map fun x => [Char.ofNat (65 + x)]).dedup.length = f.atomvals.length) ∧
    ((∃ x ∈ f.atomvals, 26 ≤ x) → f.isBlightless = .ok true → f.hypersplitsPretty none = .error .typeError ∧ f.coresPretty none = .error .typeError) := by
  obtain ⟨a1, a2⟩ := chooseNames_none hf.canon.toSound h0
  constructor
  · intro h
    obtain ⟨b1, b2⟩ := a1 h
    refine ⟨?_, ?_, b2⟩
    · unfold Boolf.hypersplitsPretty; rw [b1]
    · unfold Boolf.coresPretty; rw [b1]
  · intro h hb
    obtain ⟨b1, b2⟩ := a2 h
    obtain ⟨c1, c2⟩ := C150_numbers f hf (f.atomvals.map Int.ofNat) b2 h0 hb
    constructor
    · rw [← c1]; unfold Boolf.hypersplitsPretty; rw [b1]
    · rw [← c2]; unfold Boolf.coresPretty; rw [b1]

/-- **C150.** A list with another number of different names is rejected by all methods. -/
theorem C150_mismatch (f : Boolf) (hf : Reach f) (names : List Name) (hn : names.dedup.length ≠ f.atomvals.length) :
    f.bundlesPretty (some names) = .error .argMismatch ∧ f.fullspotAtomsPretty (some names) = .error .argMismatch ∧
    f.hypersplitsPretty (some names) = .error .argMismatch ∧ f.coresPretty (some names) = .error .argMismatch := by
  have hc : f.chooseNames (some names) = .error .argMismatch := by
    unfold Boolf.chooseNames
    simp only
    rw [hf.canon.toSound.val, if_neg hn]
  refine ⟨?_, ?_, ?_, ?_⟩
  · unfold Boolf.bundlesPretty; rw [hc]; rfl
  · unfold Boolf.fullspotAtomsPretty; rw [hc]; rfl
  · unfold Boolf.hypersplitsPretty; rw [hc]; rfl
  · unfold Boolf.coresPretty; rw [hc]; rfl

/-! ## examples -/

/-- full spots 0, 1, 3, 4, 5 with the atoms 0, 1 and 2 -/
example : ∃ f : Boolf, newTT (.str ['1', '1', '0', '1', '1', '1', '0', '0']) = .ok f ∧ Reach f ∧ f.isBlightless = .ok true ∧ f.atomvals ≠ [] ∧
    (∃ l, f.bundles = .ok l ∧ l = [[0, 2], [1]]) ∧
    (["x".toList, "y".toList, "zz".toList] : List (List Char)).dedup.length = f.atomvals.length ∧
    signedLabel ["x".toList, "y".toList, "zz".toList] [0, 2] ['1', '0'] = "+x −zz".toList ∧
    (do
      let d ← f.hypersplitsPretty (some (["x".toList, "y".toList, "zz".toList].map Name.str))
      return d.map (fun p : Nat × List (Dict (List Char) (List Nat)) => (p.1, p.2.map Dict.keys))) =
      .ok [(1, [["−x".toList, "+x".toList], ["−y".toList, "+y".toList], ["−zz".toList, "+zz".toList]]),
        (2, [["−x −zz".toList, "+x −zz".toList, "−x +zz".toList, "+x +zz".toList]])] := by
  obtain ⟨_, e1, e2⟩ := newTT_explicit ['1', '1', '0', '1', '1', '1', '0', '0'] [true, true, false, true, true, true, false, false] [0, 1, 2] 3
    (by decide) (by decide) (by decide) (by intro n; simp; omega) (by decide) (by decide)
  exact ⟨_, e1 (by decide), e2.reach, by decide +kernel, by decide, ⟨_, by decide +kernel, rfl⟩, by decide +kernel, by decide +kernel, by decide +kernel⟩

/-- a blightless function with the atoms 0 and 26, whose names are numbers -/
example : ∃ f : Boolf, newTT (.list [1, 0, 1, 1]) (some [0, 26]) = .ok f ∧ f.atomvals = [0, 26] ∧ f.hypersplitsPretty none = .error .typeError := by
  have h : newTT (.list [1, 0, 1, 1]) (some [0, 26]) = .ok { atomvals := [0, 26], root := ⟨[true, false, true, true]⟩, adicity := 27, valency := 2 } := by decide +kernel
  have hr := reach_newTT h
  exact ⟨_, h, rfl, ((C150_default _ hr (by decide)).2 ⟨26, by decide, by decide⟩ (by decide +kernel)).1⟩

end Verif.BF
