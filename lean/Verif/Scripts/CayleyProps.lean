import Verif.Scripts.Cayley

/-!
# C168: the Cayley tables of the scripts
-/

namespace Verif.Cay
open Verif.Py Verif.BV Verif.P Verif.SP Verif.SG

/-! ## tables -/

theorem mem_pairs {α : Type} {l : List α} {x : α × α} : x ∈ pairs l ↔ x.1 ∈ l ∧ x.2 ∈ l := by
  obtain ⟨a, b⟩ := x
  simp [pairs]

theorem pairs_map {α β : Type} (l : List α) (f : α → β) : pairs (l.map f) = (pairs l).map fun ab => (f ab.1, f ab.2) := by
  simp [pairs, List.flatMap_map, List.map_flatMap, Function.comp_def]

theorem pairs_nodup {α : Type} {l : List α} (h : l.Nodup) : (pairs l).Nodup := by
  unfold pairs
  rw [List.nodup_flatMap]
  refine ⟨fun a _ => h.map (fun _ _ e => (Prod.mk.inj e).2), ?_⟩
  refine h.imp ?_
  intro a b hab
  simp only [Function.onFun, List.disjoint_left, List.mem_map, not_exists, not_and]
  rintro x ⟨c, _, rfl⟩ d _ e
  exact hab (Prod.mk.inj e).1.symm

section
variable {K V : Type} [DecidableEq K]

/-- the labels that a table should have -/
def entries (code : K → K → Nat) (op : K → K → K) (l : List (K × K)) : List (Int × K) :=
  l.map fun ab => ((code ab.1 ab.2 : Int), op ab.1 ab.2)

theorem tableLoop_ok {code : K → K → Nat} {product : V → V → Except Err V} {key : V → Except Err K} {v : K → V} {op : K → K → K} :
    ∀ (l : List (K × K)) (p q : SetPart K), (∀ ab ∈ l, ∃ w, product (v ab.1) (v ab.2) = .ok w ∧ key w = .ok (op ab.1 ab.2)) →
    p.addLabels (entries code op l) = (.ok (), q) →
    tableLoop code product key (l.map fun ab => ((ab.1, v ab.1), (ab.2, v ab.2))) p = .ok q
  | [], p, q, _, h => by
    cases h
    rfl
  | (a, b) :: l, p, q, hw, h => by
    obtain ⟨w, w1, w2⟩ := hw (a, b) List.mem_cons_self
    simp only [entries, List.map_cons, SetPart.addLabels] at h
    simp only [List.map_cons, tableLoop, bind, Except.bind]
    simp only at w1 w2
    rw [w1]
    simp only
    rw [w2]
    simp only
    cases hx : p.addLabelToElement (code a b : Int) (op a b) with
    | mk r p' =>
      rw [hx] at h
      cases r with
      | error e => simp at h
      | ok u =>
        simp only at h ⊢
        exact tableLoop_ok l p' q (fun ab hab => hw ab (List.mem_cons_of_mem _ hab)) h

/-- What is shown about the tables: they are partitions of the pairs of keys, and the label of a pair is the key of the product. -/
structure IsTable (code : K → K → Nat) (ids : List K) (op : K → K → K) (t : SetPart K) : Prop where
  wf : SP.WF t
  domain : t.domain = .finite ((pairs ids).map fun ab => (code ab.1 ab.2 : Int))
  label : ∀ a ∈ ids, ∀ b ∈ ids, t.getLabelFromElement (code a b : Int) = some (op a b)
  block : ∀ c B, t.getBlockFromLabel c = some B ↔
    B ≠ [] ∧ B.Pairwise (· < ·) ∧ ∀ x, x ∈ B ↔ ∃ a ∈ ids, ∃ b ∈ ids, x = (code a b : Int) ∧ op a b = c

/-- the table with given products -/
theorem exists_table (code : K → K → Nat) (ids : List K) (op : K → K → K) (hn : ids.Nodup)
    (hc : ∀ a ∈ ids, ∀ b ∈ ids, ∀ a' ∈ ids, ∀ b' ∈ ids, code a b = code a' b' → a = a' ∧ b = b') :
    ∃ p t, newPart [] (.finite ((pairs ids).map fun ab => (code ab.1 ab.2 : Int))) = .ok p ∧
      p.addLabels (entries code op (pairs ids)) = (.ok (), t) ∧ IsTable code ids op t := by
  obtain ⟨p, hp, _⟩ := (C37_construction (L := K) [] (.finite ((pairs ids).map fun ab => (code ab.1 ab.2 : Int)))).1 (by
    simp [noOverlap_iff])
  have hfst : (entries code op (pairs ids)).map Prod.fst = (pairs ids).map fun ab => (code ab.1 ab.2 : Int) := by
    simp [entries, Function.comp_def]
  have hmem : ∀ x l, (x, l) ∈ entries code op (pairs ids) ↔ ∃ a ∈ ids, ∃ b ∈ ids, x = (code a b : Int) ∧ op a b = l := by
    intro x l
    simp only [entries, List.mem_map, mem_pairs, Prod.mk.injEq, Prod.exists]
    constructor
    · rintro ⟨a, b, ⟨h1, h2⟩, rfl, rfl⟩; exact ⟨a, h1, b, h2, rfl, rfl⟩
    · rintro ⟨a, h1, b, h2, rfl, rfl⟩; exact ⟨a, b, ⟨h1, h2⟩, rfl, rfl⟩
  obtain ⟨t, t1, t2, _, t4, _, t6, t7, _, _⟩ := C44_label_all _ (entries code op (pairs ids)) (by
    intro x l h
    rw [← hfst]
    exact List.mem_map_of_mem h) (by
    rw [hfst]
    refine List.Nodup.map_on ?_ (pairs_nodup hn)
    rintro ⟨a, b⟩ h1 ⟨a', b'⟩ h2 e
    rw [mem_pairs] at h1 h2
    obtain ⟨e1, e2⟩ := hc a h1.1 b h1.2 a' h2.1 b' h2.2 (by simpa using e)
    rw [e1, e2]) p hp
  refine ⟨p, t, hp, t1, t2, t4, fun a ha b hb => ?_, fun c B => ?_⟩
  · rw [t6, hmem]; exact ⟨a, ha, b, hb, rfl, rfl⟩
  · rw [t7]; simp only [hmem]

omit [DecidableEq K] in
theorem fillBidict_ok {same : V → V → Bool} {make : K → Except Err V} {v : K → V} : ∀ (ks ds : List K), (ds ++ ks).Nodup →
    (∀ k ∈ ks, make k = .ok (v k)) → (∀ k ∈ ds ++ ks, ∀ k' ∈ ds ++ ks, same (v k) (v k') = true → k = k') →
    fillBidict same make ks (ds.map fun k => (k, v k)) = .ok ((ds ++ ks).map fun k => (k, v k))
  | [], ds, _, _, _ => by simp [fillBidict]
  | k :: ks, ds, hn, hm, hs => by
    have hno : (ds.map fun k => (k, v k)).any (fun e => same e.2 (v k)) = false := by
      rw [Bool.eq_false_iff]
      intro h
      simp only [List.any_map, List.any_eq_true, Function.comp_def] at h
      obtain ⟨d, hd, h⟩ := h
      have := hs d (List.mem_append_left _ hd) k (by simp) h
      subst this
      have := List.disjoint_of_nodup_append hn hd
      simp at this
    rw [fillBidict, hm k List.mem_cons_self]
    simp only [bind, Except.bind]
    rw [if_neg (by rw [hno]; simp)]
    have e : (ds ++ [k]) ++ ks = ds ++ k :: ks := by simp
    have := fillBidict_ok (same := same) (make := make) (v := v) ks (ds ++ [k]) (by rw [e]; exact hn)
      (fun k' h => hm k' (List.mem_cons_of_mem _ h)) (by rw [e]; exact hs)
    rw [e] at this
    simpa using this

omit [DecidableEq K] in
theorem keyIn_ok {same : V → V → Bool} {v : K → V} {ks : List K} {c : K} {w : V} (hc : c ∈ ks) (h : ∀ k ∈ ks, same (v k) w = true ↔ k = c) :
    keyIn same (ks.map fun k => (k, v k)) w = .ok c := by
  unfold keyIn
  cases hf : (ks.map fun k => (k, v k)).find? (fun e => same e.2 w) with
  | none =>
    rw [List.find?_eq_none] at hf
    exact absurd ((h c hc).2 rfl) (hf _ (List.mem_map_of_mem hc))
  | some e =>
    have h1 := List.mem_of_find?_eq_some hf
    have h2 := List.find?_some hf
    obtain ⟨k, hk, rfl⟩ := List.mem_map.1 h1
    rw [(h k hk).1 h2]

/-- A table of products in a bidict. -/
theorem bidict_table {same : V → V → Bool} {make : K → Except Err V} {v : K → V} {product : V → V → Except Err V} {ids : List K} {op : K → K → K}
    {code : K → K → Nat} (hn : ids.Nodup) (hm : ∀ k ∈ ids, make k = .ok (v k)) (hs : ∀ k ∈ ids, ∀ k' ∈ ids, same (v k) (v k') = true → k = k')
    (hp : ∀ a ∈ ids, ∀ b ∈ ids, op a b ∈ ids ∧ ∃ w, product (v a) (v b) = .ok w ∧ ∀ k ∈ ids, same (v k) w = true ↔ k = op a b)
    {p t : SetPart K} (h1 : newPart [] (.finite ((pairs ids).map fun ab => (code ab.1 ab.2 : Int))) = .ok p)
    (h2 : p.addLabels (entries code op (pairs ids)) = (.ok (), t)) :
    fillBidict same make ids [] = .ok (ids.map fun k => (k, v k)) ∧
      table code product (keyIn same (ids.map fun k => (k, v k))) ids (ids.map fun k => (k, v k)) = .ok t := by
  constructor
  · exact fillBidict_ok ids [] hn hm hs
  · unfold table
    rw [h1]
    simp only [bind, Except.bind]
    rw [pairs_map]
    refine tableLoop_ok (pairs ids) p t ?_ h2
    rintro ⟨a, b⟩ hab
    rw [mem_pairs] at hab
    obtain ⟨h3, w, h4, h5⟩ := hp a hab.1 b hab.2
    exact ⟨w, h4, keyIn_ok h3 h5⟩

end

/-! ## permutations -/

/-- `P k` is the finite permutation with index `k` among those of `n` places. -/
structure Listed (n : Nat) (P : Nat → Perm) : Prop where
  list : permList n = .ok ((List.range n.factorial).map P)
  con : ∀ k, k < n.factorial → Constructed (P k)
  fin : ∀ k, k < n.factorial → (P k).perilen = none
  len : ∀ k, k < n.factorial → (P k).length ≤ n
  idx : ∀ k, k < n.factorial → ∃ q, intToPerm k = .ok q ∧ ∀ i, (P k).get i = q.get i
  inj : ∀ k l, k < n.factorial → l < n.factorial → (∀ i, (P k).get i = (P l).get i) → k = l
  sur : ∀ p, Constructed p → p.perilen = none → p.length ≤ n → ∃ k, k < n.factorial ∧ ∀ i, (P k).get i = p.get i

theorem exists_listed (n : Nat) : ∃ P, Listed n P := by
  obtain ⟨h1, h2, h3, h4⟩ := BF.C93_rev_colex_perms n
  have hall : ∀ l, l ∈ BF.revColexPerms n → ∃ p, mkPerm (.seq l) = .ok p ∧ Constructed p ∧ p.perilen = none ∧ p.length ≤ n ∧ (List.range n).map p.get = l := by
    intro l hl
    obtain ⟨p, p1, p2, p3, p4, p5, _⟩ := BF.perm_of_seq ((h3 l).1 hl)
    exact ⟨p, p1, p2, p3, p4, p5⟩
  have : Nonempty Perm := ⟨⟨true, [], none, 0⟩⟩
  choose! F f1 f2 f3 f4 f5 using hall
  have hget : ∀ k, k < n.factorial → (BF.revColexPerms n).getD k [] ∈ BF.revColexPerms n := by
    intro k hk
    rw [List.getD_eq_getElem _ _ (by omega)]
    exact List.getElem_mem _
  have hext : ∀ p q : Perm, Constructed p → Constructed q → p.perilen = none → q.perilen = none → p.length ≤ n → q.length ≤ n →
      (List.range n).map p.get = (List.range n).map q.get → ∀ i, p.get i = q.get i := by
    intro p q hp hq hpf hqf hpl hql e i
    by_cases hi : i < n
    · have := congrArg (fun l => l[i]?) e
      simpa [hi] using this
    · rw [hp.wf.finite_bounded hpf (by omega), hq.wf.finite_bounded hqf (by omega)]
  refine ⟨fun k => F ((BF.revColexPerms n).getD k []), ?_, fun k hk => f2 _ (hget k hk), fun k hk => f3 _ (hget k hk), fun k hk => f4 _ (hget k hk), ?_, ?_, ?_⟩
  · unfold permList
    rw [mapM_ok (g := F) f1]
    congr 1
    apply List.ext_getElem
    · simp [h1]
    · intro i hi _
      rw [List.length_map] at hi
      simp [List.getElem?_eq_getElem hi]
  · intro k hk
    obtain ⟨q, q1, q2, q3, q4⟩ := h4 k hk
    obtain ⟨q', q1', q2', _⟩ := C15_rank_of_int k
    rw [q1] at q1'
    cases q1'
    refine ⟨q, q1, ?_⟩
    refine hext _ _ (f2 _ (hget k hk)) q2' (f3 _ (hget k hk)) q2 (f4 _ (hget k hk)) q3 ?_
    rw [f5 _ (hget k hk), List.getD_eq_getElem?_getD, q4]
    rfl
  · intro k l hk hl h
    have e : (BF.revColexPerms n).getD k [] = (BF.revColexPerms n).getD l [] := by
      rw [← f5 _ (hget k hk), ← f5 _ (hget l hl)]
      exact List.map_congr_left fun i _ => h i
    rw [List.getD_eq_getElem _ _ (by omega), List.getD_eq_getElem _ _ (by omega)] at e
    exact (List.Nodup.getElem_inj_iff h2).1 e
  · intro p hp hpf hpl
    have hm : (List.range n).map p.get ∈ BF.revColexPerms n := by
      rw [h3]
      have hlt : ∀ i, i < n → p.get i < n := hp.wf.maps_below n (Or.inl ⟨hpf, hpl⟩)
      have hnd : ((List.range n).map p.get).Nodup := List.Nodup.map_on (fun i _ j _ e => hp.wf.get_bijective.1 e) List.nodup_range
      have hsub : List.Subperm ((List.range n).map p.get) (List.range n) := List.subperm_of_subset hnd (by
        intro x hx
        obtain ⟨i, hi, rfl⟩ := List.mem_map.1 hx
        rw [List.mem_range] at hi ⊢
        exact hlt i hi)
      exact hsub.perm_of_length_le (by simp)
    obtain ⟨k, hk, e⟩ := List.getElem_of_mem hm
    have hk' : k < n.factorial := by omega
    refine ⟨k, hk', ?_⟩
    refine hext _ _ (f2 _ (hget k hk')) hp (f3 _ (hget k hk')) hpf (f4 _ (hget k hk')) hpl ?_
    rw [f5 _ (hget k hk'), List.getD_eq_getElem _ _ hk, e]

theorem Listed.eq_iff {n : Nat} {P : Nat → Perm} (h : Listed n P) {k l : Nat} (hk : k < n.factorial) (hl : l < n.factorial) :
    (∀ i, (P k).get i = (P l).get i) ↔ k = l := ⟨h.inj k l hk hl, by rintro rfl _; rfl⟩

/-- the index of a product -/
theorem Listed.product {n : Nat} {P : Nat → Perm} (h : Listed n P) {a b : Nat} (ha : a < n.factorial) (hb : b < n.factorial) :
    ∃ c, c < n.factorial ∧ ∃ w, (P a).mul (P b) = .ok w ∧ Constructed w ∧ (∀ i, w.get i = (P a).get ((P b).get i)) ∧ ∀ i, (P c).get i = w.get i := by
  obtain ⟨w, w1, w2, w3, w4, _⟩ := Verif.P.mul_spec (h.con a ha) (h.con b hb) (Or.inr (Or.inr (by rw [h.fin a ha, h.fin b hb])))
  have hw : ∀ i, w.get i = (P a).get ((P b).get i) := fun i => by rw [w3]; rfl
  have hf := w4 (h.fin a ha) (h.fin b hb)
  obtain ⟨c, c1, c2⟩ := h.sur w w2 hf (by
    rw [← C05_length_minimal w w2 hf]
    intro i hi
    rw [hw, (h.con b hb).wf.finite_bounded (h.fin b hb) (by have := h.len b hb; omega), (h.con a ha).wf.finite_bounded (h.fin a ha) (by have := h.len a ha; omega)])
  exact ⟨c, c1, w, w1, w2, hw, c2⟩

theorem indexIn_ok {N : Nat} {P : Nat → Perm} {w : Perm} {c : Nat} (hc : c < N) (h : ∀ k, k < N → ((P k).eq w = true ↔ k = c)) :
    indexIn ((List.range N).map P) w = .ok c := by
  unfold indexIn
  have : ((List.range N).map P).findIdx? (fun q => q.eq w) = some c := by
    rw [List.findIdx?_eq_some_iff_getElem]
    refine ⟨by simpa using hc, by simpa using (h c hc).2 rfl, ?_⟩
    intro j hj
    have hjN : j < N := by omega
    simp only [List.getElem_map, List.getElem_range]
    rw [h j hjN]
    omega
  rw [this]

/-! ## Latin squares -/

theorem surj_of_inj {K : Type} {l : List K} (hn : l.Nodup) {f : K → K} (hm : ∀ a ∈ l, f a ∈ l) (hi : ∀ a ∈ l, ∀ b ∈ l, f a = f b → a = b) :
    ∀ c ∈ l, ∃ a ∈ l, f a = c := by
  have hnd : (l.map f).Nodup := List.Nodup.map_on hi hn
  have hsub : List.Subperm (l.map f) l := List.subperm_of_subset hnd (by
    intro x hx
    obtain ⟨i, hi, rfl⟩ := List.mem_map.1 hx
    exact hm i hi)
  have hp := hsub.perm_of_length_le (by simp)
  intro c hc
  exact List.mem_map.1 (hp.mem_iff.2 hc)

/-- The block of each label contains exactly one pair from each row, and exactly one from each column. -/
theorem IsTable.latin {K : Type} [DecidableEq K] {code : K → K → Nat} {ids : List K} {op : K → K → K} {t : SetPart K} (h : IsTable code ids op t) (hn : ids.Nodup)
    (hc : ∀ a ∈ ids, ∀ b ∈ ids, ∀ a' ∈ ids, ∀ b' ∈ ids, code a b = code a' b' → a = a' ∧ b = b') (hm : ∀ a ∈ ids, ∀ b ∈ ids, op a b ∈ ids)
    (hl : ∀ a ∈ ids, ∀ b ∈ ids, ∀ c ∈ ids, op a b = op a c → b = c) (hr : ∀ a ∈ ids, ∀ b ∈ ids, ∀ c ∈ ids, op a c = op b c → a = b) :
    ∀ c ∈ ids, ∃ B, t.getBlockFromLabel c = some B ∧ B.Pairwise (· < ·) ∧ B.length = ids.length ∧
      (∀ a ∈ ids, ∃ b ∈ ids, (code a b : Int) ∈ B ∧ ∀ b' ∈ ids, (code a b' : Int) ∈ B → b' = b) ∧
      (∀ b ∈ ids, ∃ a ∈ ids, (code a b : Int) ∈ B ∧ ∀ a' ∈ ids, (code a' b : Int) ∈ B → a' = a) := by
  intro c hcm
  have hrow : ∀ a, a ∈ ids → ∃ b, b ∈ ids ∧ op a b = c := fun a ha => surj_of_inj hn (f := op a) (hm a ha) (hl a ha) c hcm
  have hcol : ∀ b, b ∈ ids → ∃ a, a ∈ ids ∧ op a b = c := fun b hb => surj_of_inj hn (f := fun a => op a b) (fun a ha => hm a ha b hb) (fun a ha a' ha' => hr a ha a' ha' b hb) c hcm
  have : Nonempty K := ⟨c⟩
  choose! g g1 g2 using hrow
  have hmem : ∀ x : Int, x ∈ sortZ (ids.map fun a => (code a (g a) : Int)) ↔ ∃ a ∈ ids, ∃ b ∈ ids, x = (code a b : Int) ∧ op a b = c := by
    intro x
    rw [mem_sortZ, List.mem_map]
    constructor
    · rintro ⟨a, ha, rfl⟩; exact ⟨a, ha, g a, g1 a ha, rfl, g2 a ha⟩
    · rintro ⟨a, ha, b, hb, rfl, e⟩
      refine ⟨a, ha, ?_⟩
      rw [hl a ha (g a) (g1 a ha) b hb (by rw [g2 a ha, e])]
  have hnd : (ids.map fun a => (code a (g a) : Int)).Nodup := by
    refine List.Nodup.map_on ?_ hn
    intro a ha b hb e
    exact (hc a ha (g a) (g1 a ha) b hb (g b) (g1 b hb) (by simpa using e)).1
  have hB := (h.block c (sortZ (ids.map fun a => (code a (g a) : Int)))).2 ⟨by
    intro e
    have := (hmem (code c (g c))).2 ⟨c, hcm, g c, g1 c hcm, rfl, g2 c hcm⟩
    rw [e] at this
    exact absurd this (List.not_mem_nil), sortZ_lt hnd, hmem⟩
  refine ⟨_, hB, sortZ_lt hnd, by simp [length_sortZ], ?_, ?_⟩
  · intro a ha
    refine ⟨g a, g1 a ha, (hmem _).2 ⟨a, ha, g a, g1 a ha, rfl, g2 a ha⟩, fun b' hb' e => ?_⟩
    obtain ⟨a2, h1, b2, h2, e1, e2⟩ := (hmem _).1 e
    obtain ⟨rfl, rfl⟩ := hc a ha b' hb' a2 h1 b2 h2 (by simpa using e1)
    exact hl a ha b' hb' (g a) (g1 a ha) (by rw [e2, g2 a ha])
  · intro b hb
    obtain ⟨a, ha, e⟩ := hcol b hb
    refine ⟨a, ha, (hmem _).2 ⟨a, ha, b, hb, rfl, e⟩, fun a' ha' e' => ?_⟩
    obtain ⟨a2, h1, b2, h2, e1, e2⟩ := (hmem _).1 e'
    obtain ⟨rfl, rfl⟩ := hc a' ha' b hb a2 h1 b2 h2 (by simpa using e1)
    exact hr a' ha' a ha b hb (by rw [e2, e])

/-! ## C168: the table of the permutations -/

theorem pairCode_inj {N a b a' b' : Nat} (hb : b < N) (hb' : b' < N) (h : a * N + b = a' * N + b') : a = a' ∧ b = b' := by
  have h1 := congrArg (· / N) h
  have h2 := congrArg (· % N) h
  simp only [Nat.add_comm _ b, Nat.add_comm _ b', Nat.add_mul_div_right _ _ (Nat.pos_of_ne_zero (by omega : N ≠ 0)), Nat.div_eq_of_lt hb, Nat.div_eq_of_lt hb', Nat.add_mul_mod_self_right, Nat.mod_eq_of_lt hb, Nat.mod_eq_of_lt hb', Nat.zero_add] at h1 h2
  exact ⟨h1, h2⟩

/-- **C168.** The Cayley table of the symmetric group: no exception is raised; the label of `(a, b)` is the index of the product of the permutations with
indices `a` and `b`.  The block of each label contains, in ascending order, exactly one pair from each row and from each column. -/
theorem C168_permutations (n : Nat) :
    ∃ t, permTable n = .ok t ∧ SP.WF t ∧ t.domain = .finite ((pairs (List.range n.factorial)).map fun ab => (pairCode n ab.1 ab.2 : Int)) ∧
      (∀ a b, a < n.factorial → b < n.factorial → ∃ c p q r, c < n.factorial ∧ t.getLabelFromElement (pairCode n a b : Int) = some c ∧
        intToPerm a = .ok p ∧ intToPerm b = .ok q ∧ intToPerm c = .ok r ∧ ∀ i, r.get i = p.get (q.get i)) ∧
      (∀ c, c < n.factorial → ∃ B, t.getBlockFromLabel c = some B ∧ B.Pairwise (· < ·) ∧ B.length = n.factorial ∧
        (∀ a, a < n.factorial → ∃ b < n.factorial, (pairCode n a b : Int) ∈ B ∧ ∀ b' < n.factorial, (pairCode n a b' : Int) ∈ B → b' = b) ∧
        (∀ b, b < n.factorial → ∃ a < n.factorial, (pairCode n a b : Int) ∈ B ∧ ∀ a' < n.factorial, (pairCode n a' b : Int) ∈ B → a' = a)) := by
  obtain ⟨P, hP⟩ := exists_listed n
  have hprod : ∀ a b, a < n.factorial → b < n.factorial → ∃ c, c < n.factorial ∧ ∃ w, (P a).mul (P b) = .ok w ∧ Constructed w ∧
      (∀ i, w.get i = (P a).get ((P b).get i)) ∧ ∀ i, (P c).get i = w.get i := fun a b ha hb => hP.product ha hb
  choose! op o1 o2 using hprod
  have hop : ∀ a b, a < n.factorial → b < n.factorial → ∀ i, (P (op a b)).get i = (P a).get ((P b).get i) := by
    intro a b ha hb i
    obtain ⟨w, _, _, w3, w4⟩ := o2 a b ha hb
    rw [w4, w3]
  have hcode : ∀ a ∈ List.range n.factorial, ∀ b ∈ List.range n.factorial, ∀ a' ∈ List.range n.factorial, ∀ b' ∈ List.range n.factorial,
      pairCode n a b = pairCode n a' b' → a = a' ∧ b = b' := by
    intro a _ b hb a' _ b' hb' e
    exact pairCode_inj (List.mem_range.1 hb) (List.mem_range.1 hb') e
  obtain ⟨p, t, t1, t2, t3⟩ := exists_table (pairCode n) (List.range n.factorial) op List.nodup_range hcode
  have hzip : ((List.range n.factorial).map P).zipIdx.map Prod.swap = (List.range n.factorial).map fun k => (k, P k) := by
    apply List.ext_getElem
    · simp
    · intro i _ _; simp
  refine ⟨t, ?_, t3.wf, t3.domain, ?_, ?_⟩
  · unfold permTable
    rw [hP.list]
    simp only [bind, Except.bind]
    unfold table
    rw [t1]
    simp only [bind, Except.bind]
    rw [hzip, pairs_map]
    refine tableLoop_ok (pairs _) p t ?_ t2
    rintro ⟨a, b⟩ hab
    rw [mem_pairs, List.mem_range, List.mem_range] at hab
    obtain ⟨w, w1, w2, w3, w4⟩ := o2 a b hab.1 hab.2
    refine ⟨w, w1, indexIn_ok (o1 a b hab.1 hab.2) ?_⟩
    intro k hk
    rw [C05_eq_extensional _ _ (hP.con k hk) w2, ← hP.eq_iff hk (o1 a b hab.1 hab.2)]
    simp only [w4]
  · intro a b ha hb
    obtain ⟨x, x1, x2⟩ := hP.idx a ha
    obtain ⟨y, y1, y2⟩ := hP.idx b hb
    obtain ⟨z, z1, z2⟩ := hP.idx (op a b) (o1 a b ha hb)
    refine ⟨op a b, x, y, z, o1 a b ha hb, t3.label a (List.mem_range.2 ha) b (List.mem_range.2 hb), x1, y1, z1, ?_⟩
    intro i
    rw [← z2, hop a b ha hb, x2, y2]
  · have hlat := t3.latin List.nodup_range hcode (fun a ha b hb => List.mem_range.2 (o1 a b (List.mem_range.1 ha) (List.mem_range.1 hb))) (by
      intro a ha b hb c hc e
      rw [List.mem_range] at ha hb hc
      rw [← hP.eq_iff hb hc]
      intro i
      apply (hP.con a ha).wf.get_bijective.1
      rw [← hop a b ha hb, ← hop a c ha hc, e]) (by
      intro a ha b hb c hc e
      rw [List.mem_range] at ha hb hc
      rw [← hP.eq_iff ha hb]
      intro i
      obtain ⟨j, rfl⟩ := (hP.con c hc).wf.get_bijective.2 i
      rw [← hop a c ha hc, ← hop b c hb hc, e])
    intro c hc
    simpa using hlat c (List.mem_range.2 hc)

example : (permTable 3).map (fun t => (t.getLabelFromElement (pairCode 3 1 2 : Int), t.getLabelFromElement (pairCode 3 2 1 : Int),
    (t.getBlockFromLabel 4).map fun B => B.map fun x => (x.toNat / 6, x.toNat % 6))) =
    .ok (some 4, some 3, some [(0, 4), (1, 2), (2, 5), (3, 3), (4, 0), (5, 1)]) := by decide +kernel

end Verif.Cay
