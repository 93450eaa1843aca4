import Verif.Boolf.Model32
import Verif.Boolf.Props69
import Verif.Boolf.Props81

/-!
# Property C161: the unique potential cores of hypersplits are added to the collection of segments
-/

namespace Verif.BF
open Verif.Py Verif.BV Verif.P Verif.W Verif.SP
open Verif.A hiding Mat

/-! ## specification -/

/-- the borders at the places `l` divide the numbers in all possible parts -/
def IsHypersplit (F : List Nat) (n : Nat) (l : List Nat) : Prop :=
  l ≠ [] ∧ l.Pairwise (· < ·) ∧ (∀ k ∈ l, k < n) ∧ ∀ c : Nat → Bool, ∃ s ∈ F, ∀ k ∈ l, s.testBit k = c k

/-- The only possible core of a hypersplit: the vector has zeros at its places.  Each other place is one, whose border does not cross all borders of the hypersplit,
and the vector has the sign of the side where one of them is. -/
def UniqueCore (F : List Nat) (n : Nat) (l : List Nat) (v : List Int) : Prop :=
  v.length = n ∧ ∀ k < n, (k ∈ l → v[k]? = some 0) ∧
    (k ∉ l → (v[k]? = some 1 ∧ ∃ a ∈ l, Sided F a k true) ∨ (v[k]? = some (-1) ∧ ∃ a ∈ l, Sided F a k false))

/-- the numbers, together with the vertices of the unique cores of their hypersplits -/
def WithCores (F : List Nat) (n s : Nat) : Prop := s ∈ F ∨ ∃ l v, IsHypersplit F n l ∧ UniqueCore F n l v ∧ Adjoins n v s

/-! ## the function that is created again -/

/-- **C161.** Creating a function again from its full spots and atoms with `skip_deflation` gives the function. -/
theorem C161_created {f : Boolf} (hf : Canon f) {S : List Nat} (hS : ∀ s, s ∈ S ↔ s ∈ f.fullspots) :
    newFullspots (S.map Int.ofNat) (some (f.atomvals.map Int.ofNat)) none true = .ok f := by
  unfold newFullspots
  rw [if_neg (by simp)]
  have hmem : ∀ i : Nat, f.root.vector[i]? = some true ↔ i ∈ S := fun i => by rw [hS]; exact mem_fullspots.symm
  have hlen := hf.len
  by_cases hS0 : S = []
  · subst hS0
    rw [if_pos (by simp)]
    refine congrArg Except.ok ((canon_const false).ext hf fun a => ?_)
    rw [eval_const]
    unfold Boolf.eval
    have := hmem (valB (f.atomvals.map a))
    rw [List.getD_eq_getElem?_getD]
    cases h : f.root.vector[valB (f.atomvals.map a)]? with
    | none => rfl
    | some b =>
      rw [h] at this
      cases b with
      | false => rfl
      | true => simp at this
  · rw [if_neg (by simpa using hS0)]
    simp only [Option.getD_some]
    by_cases hA : f.atomvals = []
    · rw [if_pos (by rw [hA]; rfl)]
      rw [hA] at hlen
      have h0 : ∀ i ∈ S, i = 0 := by
        intro i hi
        have := getElem?_some_lt ((hmem i).2 hi)
        rw [hlen] at this
        simpa using this
      rw [if_pos (by
        rw [List.all_eq_true]
        intro z hz
        obtain ⟨i, hi, rfl⟩ := List.mem_map.1 hz
        rw [h0 i hi]; rfl)]
      refine congrArg Except.ok ((canon_const true).ext hf fun a => ?_)
      rw [eval_const]
      unfold Boolf.eval
      obtain ⟨i, hi⟩ := List.exists_mem_of_ne_nil S hS0
      have h1 := (hmem i).2 hi
      rw [h0 i hi] at h1
      rw [hA, List.getD_eq_getElem?_getD]
      have : valB ([].map a) = 0 := rfl
      rw [this, h1]
      rfl
    · rw [if_neg (by simpa using hA)]
      simp only [List.length_map, shl_eq]
      obtain ⟨b, b1, b2, b3⟩ := (C26_exposet S (2 ^ f.atomvals.length)).1 (by
        intro i hi
        rw [← hlen]
        exact getElem?_some_lt ((hmem i).2 hi))
      have hb : b = f.root := by
        have hv : b.vector = f.root.vector := by
          apply List.ext_getElem?
          intro i
          have hbl : b.vector.length = f.root.vector.length := by rw [hlen]; exact b2
          have h1 : b.vector[i]? = some true ↔ f.root.vector[i]? = some true := by rw [hmem, ← b3, mem_exposet]
          by_cases hi : i < b.vector.length
          · have hi' : i < f.root.vector.length := hbl ▸ hi
            rw [List.getElem?_eq_getElem hi, List.getElem?_eq_getElem hi'] at h1 ⊢
            simp only [Option.some.injEq] at h1 ⊢
            rw [Bool.eq_iff_iff]
            exact h1
          · rw [List.getElem?_eq_none (by omega), List.getElem?_eq_none (by omega)]
        cases b; cases hr : f.root; rw [hr] at hv; simp only at hv; rw [hv]
      subst hb
      simp only [b1, bind, Except.bind, if_true]
      obtain ⟨g, g', g1, g2, g3, g4, g5⟩ := C66_skip f.root.vector f.atomvals hf.nodup hA hlen
      rw [show newTT (.binv f.root) (some (f.atomvals.map Int.ofNat)) none true = .ok g from g1]
      have hg := good_newTT g1
      obtain ⟨g'', e1, _, e2, e3⟩ := C66_deflated f hf.reach.obj
      rw [show newTT (.binv f.root) (some (f.atomvals.map Int.ofNat)) = .ok g' from g2] at e1
      cases e1
      obtain rfl := e3.2 hf.infl
      have hA' : g.atomvals = g'.atomvals := eq_of_mem_iff_of_lt g4 hf.asc fun x => g3.mem_iff
      have hev : ∀ a, g.eval a = g'.eval a := by
        intro a
        obtain ⟨key, k1, k2⟩ := eval_key g g' hg.toSound hf.toSound a
        have := g5 key
        rw [getItem_eq hg.toSound, getItem_eq hf.toSound] at this
        rw [k1, k2, Except.ok.inj this]
      refine congrArg Except.ok ((hg.canon ?_).ext hf hev)
      rw [← Bool.not_eq_true]
      intro hi
      obtain ⟨x, hx, hx'⟩ := hg.flag.1 hi
      rw [hA'] at hx
      rw [funext hev] at hx'
      exact hx' ((hf.mem_iff x).1 hx)

/-! ## collections -/

/-- a collection that contains the faces of its segments contains their vertices -/
theorem spots_of_face {n : Nat} {c : Collection} (hinf : ∀ w, c.inquire w = true → ∀ k, w[k]? = some 0 → c.inquire (w.set k (-1)) = true ∧ c.inquire (w.set k 1) = true) :
    ∀ (m : Nat) (v : List Int), v.count 0 = m → Ternary n v → c.inquire v = true → ∀ s, Adjoins n v s → c.inquire (spotVector n s) = true
  | 0, v, h0, hv, hc, s, hs => by
    obtain ⟨t, h1, rfl⟩ := exists_spot hv h0
    rw [(adjoins_spotVector h1).1 hs]
    exact hc
  | m + 1, v, h0, hv, hc, s, hs => by
    have hmem : (0 : Int) ∈ v := List.count_pos_iff.1 (by omega)
    obtain ⟨k, hk⟩ := List.mem_iff_getElem?.1 hmem
    have hlt := (List.getElem?_eq_some_iff.1 hk).1
    have hcount : ∀ x : Int, x ≠ 0 → (v.set k x).count 0 = m := by
      intro x hx
      rw [List.count_set hlt]
      have : v[k] = 0 := (List.getElem?_eq_some_iff.1 hk).2
      simp [this, hx, h0]
    obtain ⟨q1, q2⟩ := hinf v hc k hk
    cases hb : s.testBit k with
    | false =>
      refine spots_of_face hinf m (v.set k (-1)) (hcount _ (by simp)) (hv.set k (by simp)) q1 s ⟨hs.1, fun j x hj => ?_⟩
      by_cases hjk : k = j
      · subst hjk
        rw [List.getElem?_set_self hlt, Option.some.injEq] at hj
        subst hj
        exact ⟨fun h => absurd h (by decide), fun _ => hb⟩
      · rw [List.getElem?_set_ne hjk] at hj
        exact hs.2 j x hj
    | true =>
      refine spots_of_face hinf m (v.set k 1) (hcount _ (by simp)) (hv.set k (by simp)) q2 s ⟨hs.1, fun j x hj => ?_⟩
      by_cases hjk : k = j
      · subst hjk
        rw [List.getElem?_set_self hlt, Option.some.injEq] at hj
        subst hj
        exact ⟨fun _ => hb, fun h => absurd h (by decide)⟩
      · rw [List.getElem?_set_ne hjk] at hj
        exact hs.2 j x hj

/-- the loop: the vectors of all cores without free places are in the resulting collection -/
theorem coresLoop_spec {n fuel : Nat} {T : Nat → Prop} (hfuel : 3 ^ n ≤ fuel) : ∀ (l : List Core) (c : Collection), Coll n c → (∀ w, c.inquire w = true → FullFace n T w) →
    (∀ e ∈ l, e.vectors.length = 2 ^ e.free.length ∧ (e.free = [] → ∀ v ∈ e.vectors, FullFace n T v)) →
    ∃ c', coresLoop fuel l c = .ok c' ∧ Grows n T c c' ∧ ∀ e ∈ l, e.free = [] → ∀ v ∈ e.vectors, c'.inquire v = true
  | [], c, h, hT, _ => ⟨c, rfl, Grows.refl h hT, by simp⟩
  | e :: l, c, h, hT, hl => by
    have hl' : ∀ e' ∈ l, e'.vectors.length = 2 ^ e'.free.length ∧ (e'.free = [] → ∀ v ∈ e'.vectors, FullFace n T v) := fun e' he' => hl e' (by simp [he'])
    obtain ⟨h1, h2⟩ := hl e (by simp)
    rw [coresLoop]
    by_cases ha : e.vectors.any c.inquire = true
    · rw [if_pos ha]
      obtain ⟨c', r1, r2, r3⟩ := coresLoop_spec hfuel l c h hT hl'
      refine ⟨c', r1, r2, ?_⟩
      intro e' he' hfree v hv
      rcases List.mem_cons.1 he' with rfl | he'
      · rw [hfree] at h1
        obtain ⟨x, hx⟩ := List.length_eq_one_iff.1 (h1.trans (by rfl))
        rw [hx] at ha hv
        simp only [List.any_cons, List.any_nil, Bool.or_false] at ha
        rw [List.mem_singleton] at hv
        subst hv
        exact r2.sub _ ha
      · exact r3 e' he' hfree v hv
    · rw [if_neg ha]
      by_cases hfree : e.free = []
      · rw [if_pos hfree]
        rw [hfree] at h1
        obtain ⟨x, hx⟩ := List.length_eq_one_iff.1 (h1.trans (by rfl))
        have hxT := h2 hfree x (by rw [hx]; simp)
        have hmiss : missing n c ≤ fuel := by
          refine le_trans (le_trans (List.length_filter_le _ _) ?_) hfuel
          rw [length_ternaryVectors]
        obtain ⟨c₁, d1, d2, d3⟩ := demand_spec (add_spec n T fuel) h hmiss hT hxT
        obtain ⟨c', r1, r2, r3⟩ := coresLoop_spec hfuel l c₁ d2.coll d2.full hl'
        refine ⟨c', ?_, d2.trans r2, ?_⟩
        · rw [hx]
          simp only [item, List.getElem?_cons_zero, bind, Except.bind, d1]
          exact r1
        · intro e' he' hfree' v hv
          rcases List.mem_cons.1 he' with rfl | he'
          · rw [hx, List.mem_singleton] at hv
            subst hv
            exact r2.sub _ d3
          · exact r3 e' he' hfree' v hv
      · rw [if_neg hfree]
        obtain ⟨c', r1, r2, r3⟩ := coresLoop_spec hfuel l c h hT hl'
        refine ⟨c', r1, r2, ?_⟩
        intro e' he' hfree' v hv
        rcases List.mem_cons.1 he' with rfl | he'
        · exact absurd hfree' hfree
        · exact r3 e' he' hfree' v hv

/-- a collection that grows from a complete one is complete -/
theorem Grows.complete {n : Nat} {S T : Nat → Prop} {c c' : Collection} (hc : ∀ v, c.inquire v = true ↔ FullFace n S v) (h : Grows n T c c')
    {V : List Int → Prop} (hV : ∀ v, V v → c'.inquire v = true) (hT : ∀ s, T s → s < 2 ^ n → S s ∨ ∃ v, V v ∧ Adjoins n v s) :
    ∀ v, c'.inquire v = true ↔ FullFace n T v := by
  have hinf : ∀ w, c'.inquire w = true → ∀ k, w[k]? = some 0 → c'.inquire (w.set k (-1)) = true ∧ c'.inquire (w.set k 1) = true := by
    intro w hw k hk
    by_cases hcw : c.inquire w = true
    · have hw' := (hc w).1 hcw
      exact ⟨h.sub _ ((hc _).2 (hw'.inferior hk (by simp))), h.sub _ ((hc _).2 (hw'.inferior hk (by simp)))⟩
    · exact h.inferior w hw (by simpa using hcw) k hk
  intro v
  refine ⟨h.full v, fun hv => ?_⟩
  apply inquire_complete (S := T) (n := n) _ _ _ v rfl hv
  · intro s hs hlt
    rcases hT s hs hlt with h1 | ⟨w, h1, h2⟩
    · exact h.sub _ ((hc _).2 ⟨spotVector_ternary n s, fun t ht => by rw [(adjoins_spotVector hlt).1 ht]; exact h1⟩)
    · exact spots_of_face hinf _ w rfl (h.full w (hV w h1)).1 (hV w h1) s h2
  · intro w hw k x hk hx hn
    by_cases hcw : c.inquire w = true
    · by_cases hcn : c.inquire (w.set k (x * -1)) = true
      · exact h.sub _ ((hc _).2 (((hc _).1 hcw).superior hk hx ((hc _).1 hcn)))
      · have := h.superior (w.set k (x * -1)) hn (by simpa using hcn) k (x * -1) (by rw [List.getElem?_set_self (List.getElem?_eq_some_iff.1 hk).1]) (by simpa using hx)
          (by rw [show x * -1 * -1 = x by ring, set_set_self hk]; exact hw)
        rwa [List.set_set] at this
    · exact h.superior w hw (by simpa using hcw) k x hk hx hn

/-! ## the cores -/

theorem cores_unique {F : List Nat} {n : Nat} {e : Core} (h : CoreSpec F n e) (v : List Int) : (e.free = [] ∧ v ∈ e.vectors) ↔ UniqueCore F n e.fixed v := by
  have hex : ∀ k, k < n → k ∉ e.fixed → (∃ a ∈ e.fixed, Sided F a k true) → ¬ ∃ a ∈ e.fixed, Sided F a k false := by
    intro k hk hkf h1 h2
    have q1 := (h.positive k).2 ⟨hk, hkf, h1⟩
    have q2 := (h.negative k).2 ⟨hk, hkf, h2⟩
    rw [q1] at q2
    exact absurd q2 (by decide)
  rw [h.vectors]
  constructor
  · rintro ⟨h0, h1, h2⟩
    refine ⟨h1, fun k hk => ⟨(h2 k hk).1, fun hkf => ?_⟩⟩
    have hnf : k ∉ e.free := by rw [h0]; simp
    rw [h.free_mem] at hnf
    have : ∃ a ∈ e.fixed, ∃ w, Sided F a k w := by
      by_contra hc
      apply hnf
      refine ⟨hk, hkf, fun a ha w hw => hc ⟨a, ha, w, hw⟩⟩
    obtain ⟨a, ha, w, hw⟩ := this
    cases w with
    | true => exact .inl ⟨(h2 k hk).2.1 hkf ⟨a, ha, hw⟩, a, ha, hw⟩
    | false => exact .inr ⟨(h2 k hk).2.2.1 hkf ⟨a, ha, hw⟩, a, ha, hw⟩
  · rintro ⟨h1, h2⟩
    have h0 : e.free = [] := by
      rw [List.eq_nil_iff_forall_not_mem]
      intro k hk
      obtain ⟨q1, q2, q3⟩ := (h.free_mem k).1 hk
      rcases (h2 k q1).2 q2 with ⟨_, a, ha, hs⟩ | ⟨_, a, ha, hs⟩
      · exact q3 a ha _ hs
      · exact q3 a ha _ hs
    refine ⟨h0, h1, fun k hk => ⟨(h2 k hk).1, fun hkf hs => ?_, fun hkf hs => ?_, fun hkf => ?_⟩⟩
    · rcases (h2 k hk).2 hkf with ⟨q, _⟩ | ⟨_, q⟩
      · exact q
      · exact absurd q (hex k hk hkf hs)
    · rcases (h2 k hk).2 hkf with ⟨_, q⟩ | ⟨q, _⟩
      · exact absurd hs (hex k hk hkf q)
      · exact q
    · rw [h0] at hkf
      cases hkf

theorem UniqueCore.ternary {F : List Nat} {n : Nat} {l : List Nat} {v : List Int} (h : UniqueCore F n l v) : Ternary n v := by
  refine ⟨h.1, fun x hx => ?_⟩
  obtain ⟨k, hk⟩ := List.mem_iff_getElem?.1 hx
  have hlt := (List.getElem?_eq_some_iff.1 hk).1
  rw [h.1] at hlt
  obtain ⟨h1, h2⟩ := h.2 k hlt
  by_cases hl : k ∈ l
  · have := h1 hl
    rw [hk, Option.some.injEq] at this
    simp [this]
  · rcases h2 hl with ⟨q, _⟩ | ⟨q, _⟩ <;> rw [hk, Option.some.injEq] at q <;> simp [q]

/-- all potential cores -/
theorem cores_list {f : Boolf} (hf : Reach f) (hb : f.isBlightless = .ok true) :
    ∃ d, f.hypersplitsPotentialCores = .ok d ∧ (∀ e ∈ d.values.flatMap id, IsHypersplit f.fullspots f.valency e.fixed ∧ CoreSpec f.fullspots f.valency e) ∧
      ∀ l, IsHypersplit f.fullspots f.valency l → ∃ e ∈ d.values.flatMap id, e.fixed = l := by
  have hval := hf.canon.val
  obtain ⟨h, h1⟩ := (C90_blightless f hf).1 hb
  obtain ⟨d, d1, d2, d3⟩ := (C90_potential_cores f hf).2 h h1
  obtain ⟨⟨m, k1⟩, _, _⟩ := C90_keys f hf h h1
  have hn : h.keys.Nodup := by
    rw [k1]
    exact List.Nodup.map (fun a b h => by simpa using h) List.nodup_range
  have hn' : d.keys.Nodup := d2 ▸ hn
  have hH := C90_hypersplits f hf h h1
  refine ⟨d, d1, ?_, ?_⟩
  · intro e he
    obtain ⟨E, hE, he⟩ := List.mem_flatMap.1 he
    obtain ⟨⟨n, E'⟩, hp, rfl⟩ := List.mem_map.1 hE
    have hk : n ∈ h.keys := d2 ▸ List.mem_map.2 ⟨_, hp, rfl⟩
    have hn1 : 1 ≤ n := by
      rw [k1] at hk
      obtain ⟨i, _, rfl⟩ := List.mem_map.1 hk
      omega
    obtain ⟨E₀, hE₀⟩ := Dict.mem_keys_iff.1 hk
    obtain ⟨E₁, g1, g2, g3⟩ := d3 n E₀ hE₀
    rw [Dict.mem_get? hn' hp, Option.some.injEq] at g1
    subst g1
    have hm : e.fixed ∈ E₀.map Prod.fst := g2 ▸ List.mem_map.2 ⟨e, he, rfl⟩
    obtain ⟨⟨l, q⟩, hlq, hl⟩ := List.mem_map.1 hm
    have := ((hH n hn1).2.1 l).1 ⟨q, by rw [hE₀]; exact hlq⟩
    simp only at hl
    rw [hl] at this
    refine ⟨⟨?_, this.1, by rw [hval]; exact this.2.2.1, this.2.2.2⟩, by rw [hval]; exact g3 e he⟩
    intro h0
    rw [h0] at this
    have := this.2.1
    simp at this
    omega
  · rintro l ⟨l1, l2, l3, l4⟩
    have hn1 : 1 ≤ l.length := List.length_pos_iff.2 l1
    obtain ⟨q, hq⟩ := ((hH l.length hn1).2.1 l).2 ⟨l2, rfl, by rw [← hval]; exact l3, l4⟩
    cases hg : h.get? l.length with
    | none => rw [hg] at hq; simp at hq
    | some E =>
      rw [hg] at hq
      obtain ⟨E', g1, g2, _⟩ := d3 _ E hg
      have hm : l ∈ E'.map Core.fixed := g2 ▸ List.mem_map.2 ⟨_, hq, rfl⟩
      obtain ⟨e, he, rfl⟩ := List.mem_map.1 hm
      exact ⟨e, List.mem_flatMap.2 ⟨E', Dict.mem_values_of_get? g1, he⟩, rfl⟩

/-! ## C161 -/

/-- **C161.** `loop_hypersplits` adds the only potential core of each hypersplit that has only one.  Then the collection contains exactly the faces of the hypercube,
all of whose vertices are full spots of the function or vertices of such a core.  `number_by_dimension` counts them.  The recursion ends, and no assertion fails. -/
theorem C161_loop {f : Boolf} (hf : Reach f) {fuel : Nat} (hfuel : 3 ^ f.valency ≤ fuel) {order : List (List Nat) → List (List Nat)} (ho : ∀ l, (order l).Perm l)
    (hb : f.isBlightless = .ok true) :
    ∃ c c', f.collection fuel order = .ok c ∧ loopHypersplits fuel f c = .ok c' ∧
      (∀ v, c'.inquire v = true ↔ FullFace f.valency (WithCores f.fullspots f.valency) v) ∧
      (∀ l v, IsHypersplit f.fullspots f.valency l → UniqueCore f.fullspots f.valency l v → c'.inquire v = true) ∧
      (∀ v, c.inquire v = true → c'.inquire v = true) ∧
      c'.numberByDimension.length = f.valency + 1 ∧
      ∀ d ≤ f.valency, ∃ L : List (List Int), L.Nodup ∧ (∀ v, v ∈ L ↔ v.count 0 = d ∧ c'.inquire v = true) ∧ c'.numberByDimension[d]? = some L.length := by
  have hlt : ∀ s, s ∈ f.fullspots → s < 2 ^ f.valency := by
    intro s hs
    rw [hf.canon.val]
    exact fullspots_lt hf.canon.toSound hs
  obtain ⟨c, h1, h2, h3⟩ := collection_spec hf.canon.toSound hf.canon.val hfuel ho
  obtain ⟨_, hspots⟩ := getSpots_spec h2 h3 hlt
  obtain ⟨d, d1, d2, d3⟩ := cores_list hf hb
  have hST : ∀ s, s ∈ f.fullspots → WithCores f.fullspots f.valency s := fun s hs => .inl hs
  obtain ⟨c', r1, r2, r3⟩ := coresLoop_spec (T := WithCores f.fullspots f.valency) hfuel (d.values.flatMap id) c h2 (fun w hw => ((h3 w).1 hw).mono hST) (by
    intro e he
    obtain ⟨q1, q2⟩ := d2 e he
    refine ⟨q2.number, fun hfree v hv => ?_⟩
    have hu := (cores_unique q2 v).1 ⟨hfree, hv⟩
    exact ⟨hu.ternary, fun s hs => .inr ⟨_, v, q1, hu, hs⟩⟩)
  have hcores : ∀ l v, IsHypersplit f.fullspots f.valency l → UniqueCore f.fullspots f.valency l v → c'.inquire v = true := by
    intro l v hl hv
    obtain ⟨e, he, rfl⟩ := d3 l hl
    obtain ⟨q1, q2⟩ := (cores_unique (d2 e he).2 v).2 hv
    exact r3 e he q1 v q2
  refine ⟨c, c', h1, ?_, ?_, hcores, r2.sub, r2.coll.length, ?_⟩
  · unfold loopHypersplits
    rw [C161_created hf.canon hspots]
    simp only [bind, Except.bind, d1]
    exact r1
  · refine Grows.complete h3 r2 (V := fun v => ∃ l, IsHypersplit f.fullspots f.valency l ∧ UniqueCore f.fullspots f.valency l v) ?_ ?_
    · rintro v ⟨l, hl, hv⟩
      exact hcores l v hl hv
    · rintro s (hs | ⟨l, v, hl, hv, hs⟩) _
      · exact .inl hs
      · exact .inr ⟨v, ⟨l, hl, hv⟩, hs⟩
  · intro dim hdim
    refine ⟨((c'.segments.get? dim).getD []).keys, ?_, fun v => ?_, ?_⟩
    · cases hg : c'.segments.get? dim with
      | none => simp [Dict.keys]
      | some D => exact (r2.coll.inner dim D hg).1
    · constructor
      · intro hm
        cases hg : c'.segments.get? dim with
        | none => rw [hg] at hm; simp [Dict.keys] at hm
        | some D =>
          rw [hg] at hm
          simp only [Option.getD_some] at hm
          obtain ⟨e, he, rfl⟩ := List.mem_map.1 hm
          have := ((r2.coll.inner dim D hg).2 e he).2.1
          exact ⟨this, inquire_iff.2 ⟨D, by rw [this]; exact hg, hm⟩⟩
      · rintro ⟨rfl, hi⟩
        obtain ⟨D, hg, hm⟩ := inquire_iff.1 hi
        rw [hg]
        exact hm
    · rw [r2.coll.number dim hdim]
      simp [Dict.keys]

/-- **C161.** If the function is not blightless, `loop_hypersplits` raises `AssertionError`. -/
theorem C161_blight {f : Boolf} (hf : Reach f) {fuel : Nat} (hfuel : 3 ^ f.valency ≤ fuel) {order : List (List Nat) → List (List Nat)} (ho : ∀ l, (order l).Perm l)
    (hb : f.isBlightless = .ok false) : ∃ c, f.collection fuel order = .ok c ∧ loopHypersplits fuel f c = .error .assertion := by
  have hlt : ∀ s, s ∈ f.fullspots → s < 2 ^ f.valency := by
    intro s hs
    rw [hf.canon.val]
    exact fullspots_lt hf.canon.toSound hs
  obtain ⟨c, h1, h2, h3⟩ := collection_spec hf.canon.toSound hf.canon.val hfuel ho
  obtain ⟨_, hspots⟩ := getSpots_spec h2 h3 hlt
  refine ⟨c, h1, ?_⟩
  unfold loopHypersplits
  rw [C161_created hf.canon hspots]
  simp only [bind, Except.bind, (C90_potential_cores f hf).1 hb]

example : ∃ f, newTT (.str "01101000".toList) = .ok f ∧ Reach f ∧ 3 ^ f.valency ≤ 27 ∧ f.fullspots = [1, 2, 4] ∧ f.isBlightless = .ok true ∧
    (do
      let c ← f.collection 27 id
      let c' ← loopHypersplits 27 f c
      return (c.numberByDimension, c'.getSpots, c'.numberByDimension)) = .ok ([3, 0, 0, 0], [1, 2, 4, 0], [4, 3, 0, 0]) := by
  obtain ⟨_, e1, e2⟩ := newTT_explicit "01101000".toList [false, true, true, false, true, false, false, false] [0, 1, 2] 3
    (by decide) (by decide) (by decide) (by intro n; simp; omega) (by decide) (by decide)
  exact ⟨_, e1 (by decide), e2.reach, by decide, by decide, by decide +kernel, by decide +kernel⟩

end Verif.BF
