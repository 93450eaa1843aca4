import Verif.Boolf.Props38

/-!
# C95: the members of the equivalence class under permutation of atoms
-/

namespace Verif.BF
open Verif.Py Verif.BV Verif.P Verif.W Verif.SP
open Verif.A hiding Mat

/-- Specification: `g` is `f` with other atoms, which are below `n`. -/
def Renamed (n : Nat) (f g : Boolf) : Prop :=
  ∃ r : Nat → Nat, (∀ x ∈ f.atomvals, r x < n) ∧ (∀ x ∈ f.atomvals, ∀ y ∈ f.atomvals, r x = r y → x = y) ∧
    ∀ key key' : Nat, (∀ x ∈ f.atomvals, key'.testBit x = key.testBit (r x)) → g.getItem key = f.getItem key'

/-- an injective map of some numbers below `n` to numbers below `n` can be extended to an arrangement -/
theorem extend_arrangement {n : Nat} {A : List Nat} {r : Nat → Nat} (hA : ∀ x ∈ A, x < n) (hr : ∀ x ∈ A, r x < n)
    (hi : ∀ x ∈ A, ∀ y ∈ A, r x = r y → x = y) : ∃ s : List Nat, s.Perm (List.range n) ∧ ∀ x ∈ A, s[x]? = some (r x) := by
  classical
  let P : Fin n → Prop := fun x => x.val ∈ A
  let Q : Fin n → Prop := fun y => ∃ x ∈ A, r x = y.val
  let e : {x // P x} ≃ {x // Q x} := Equiv.ofBijective (fun x => ⟨⟨r x.1.1, hr _ x.2⟩, x.1.1, x.2, rfl⟩) (by
    constructor
    · rintro ⟨x, hx⟩ ⟨y, hy⟩ h
      simp only [Subtype.mk.injEq, Fin.mk.injEq] at h
      exact Subtype.ext (Fin.ext (hi _ hx _ hy h))
    · rintro ⟨y, x, hx, hy⟩
      exact ⟨⟨⟨x, hA x hx⟩, hx⟩, Subtype.ext (Fin.ext hy)⟩)
  let π : Equiv.Perm (Fin n) := e.extendSubtype
  have hπ : ∀ (x : Nat) (hx : x ∈ A), (π ⟨x, hA x hx⟩).val = r x := by
    intro x hx
    have := Equiv.extendSubtype_apply_of_mem e ⟨x, hA x hx⟩ hx
    show (e.extendSubtype ⟨x, hA x hx⟩).val = r x
    rw [this]
    rfl
  refine ⟨List.ofFn fun i => (π i).val, ?_, ?_⟩
  · have hn : (List.ofFn fun i => (π i).val).Nodup := List.nodup_ofFn.2 (fun a b h => π.injective (Fin.ext h))
    exact (List.subperm_of_subset hn (by
      intro x hx
      rw [List.mem_ofFn] at hx
      obtain ⟨i, rfl⟩ := hx
      exact List.mem_range.2 (π i).isLt)).perm_of_length_le (by simp)
  · intro x hx
    rw [List.getElem?_ofFn, dif_pos (hA x hx), hπ x hx]

theorem nodup_map_on {A : List Nat} {r : Nat → Nat} (hA : A.Nodup) (hi : ∀ x ∈ A, ∀ y ∈ A, r x = r y → x = y) : (A.map r).Nodup :=
  List.Nodup.map_on hi hA

/-- choice and arrangement with a given result -/
theorem choice_arrangement {n : Nat} {I : List Nat} (hI : I.Nodup) (hb : ∀ x ∈ I, x < n) :
    ∃ s c : List Nat, s.Perm (List.range I.length) ∧ c ∈ combinations (List.range n) I.length ∧ c.Perm I ∧
      ∀ i j : Nat, s[i]? = some j → I[j]? = c[i]? := by
  have hp := List.perm_insertionSort (· ≤ ·) I
  refine ⟨(I.insertionSort (· ≤ ·)).map I.idxOf, I.insertionSort (· ≤ ·), ?_, ?_, hp, ?_⟩
  · refine (hp.map _).trans (List.Perm.of_eq ?_)
    apply List.ext_getElem?
    intro k
    rw [List.getElem?_map]
    by_cases hk : k < I.length
    · rw [List.getElem?_eq_getElem hk, List.getElem?_range hk]
      simp only [Option.map_some]
      rw [hI.idxOf_getElem k hk]
    · rw [List.getElem?_eq_none (by omega), List.getElem?_eq_none (by simp; omega)]; rfl
  · rw [mem_combinations_range]
    refine ⟨?_, fun x hx => hb x (hp.mem_iff.1 hx), hp.length_eq⟩
    have h1 := List.pairwise_insertionSort (· ≤ ·) I
    have h2 : (I.insertionSort (· ≤ ·)).Nodup := hp.nodup_iff.2 hI
    exact (h1.and h2).imp (fun h => lt_of_le_of_ne h.1 h.2)
  · intro i j h
    rw [List.getElem?_map] at h
    cases hc : (I.insertionSort (· ≤ ·))[i]? with
    | none => rw [hc] at h; cases h
    | some y =>
      rw [hc] at h
      cases h
      have hy : y ∈ I := hp.mem_iff.1 (List.mem_of_getElem? hc)
      rw [List.getElem?_eq_getElem (List.idxOf_lt_length_of_mem hy), List.getElem_idxOf]

/-- two lists that agree after an arrangement -/
theorem arranged_eq {v : Nat} {s c w I : List Nat} (hs : s.Perm (List.range v)) (hw : w.length = v) (hI : I.length = v)
    (h1 : ∀ i j : Nat, s[i]? = some j → w[j]? = c[i]?) (h2 : ∀ i j : Nat, s[i]? = some j → I[j]? = c[i]?) : w = I := by
  apply List.ext_getElem?
  intro j
  by_cases hj : j < v
  · obtain ⟨i, hi⟩ := List.mem_iff_getElem?.1 (hs.mem_iff.2 (List.mem_range.2 hj))
    rw [h1 i j hi, h2 i j hi]
  · rw [List.getElem?_eq_none (by omega), List.getElem?_eq_none (by omega)]

theorem places_le {f : Boolf} {arity : Option Int} {n : Nat} (h : f.Places arity n) : f.adicity ≤ n := by rcases h with h | h <;> omega

theorem Places.le_of_ok {f : Boolf} {arity : Option Int} {suppress : Bool} {E : EcPart} (hc : f.isConstant = false) (hE : f.ecFaction arity suppress = .ok E) :
    f.adicity ≤ 5 ∧ ∃ n, f.Places arity n := by
  by_cases ha : f.adicity ≤ 5
  · refine ⟨ha, ?_⟩
    cases arity with
    | none => exact ⟨_, Or.inl ⟨rfl, rfl⟩⟩
    | some a =>
      by_cases h : a < f.adicity
      · rw [(C95_errors f hc _ suppress).2 ha a rfl h] at hE; cases hE
      · exact ⟨a.toNat, Or.inr ⟨by congr 1; omega, by omega⟩⟩
  · rw [(C95_errors f hc _ suppress).1 (by omega)] at hE; cases hE

/-- **C95.** In each case the labels are exactly the functions that arise by replacing the atoms with different atoms below the arity. -/
theorem C95_members (f : Boolf) (hf : Reach f) (hc : f.isConstant = false) (arity : Option Int) (suppress : Bool) (n : Nat) (hn : f.Places arity n)
    (E : EcPart) (hE : f.ecFaction arity suppress = .ok E) (g : Boolf) :
    g ∈ E.part.blockLabels.map Prod.snd ↔ Reach g ∧ Renamed n f g := by
  obtain ⟨ha, _⟩ := Places.le_of_ok hc hE
  have hgd := hf.obj.good
  have hA : ∀ x ∈ f.atomvals, x < n := fun x hx => lt_of_lt_of_le (hgd.toSound.adic_lt hx) (places_le hn)
  have hdir : ∀ {g : Boolf} {r : Nat → Nat}, Lits f (fun x => ((r x : Nat) : Int)) g → (∀ x ∈ f.atomvals, r x < n) →
      (∀ x ∈ f.atomvals, ∀ y ∈ f.atomvals, r x = r y → x = y) → Reach g ∧ Renamed n f g := by
    intro g r hl h1 h2
    refine ⟨hl.1.reach, r, h1, h2, fun key key' hk => hl.key hgd.toSound fun x hx => ?_⟩
    rw [hk x hx, lit_key_nat]
  have hrev : ∀ {g g' : Boolf} {r : Nat → Nat}, Reach g → (∀ key key' : Nat, (∀ x ∈ f.atomvals, key'.testBit x = key.testBit (r x)) → g.getItem key = f.getItem key') →
      Lits f (fun x => ((r x : Nat) : Int)) g' → g' = g := by
    intro g g' r hg h hl
    apply hl.1.ext_key hg.canon
    intro key
    obtain ⟨key', _, hk⟩ := exists_key hgd.toSound fun x => key.testBit (r x)
    rw [h key key' hk, hl.key hgd.toSound (key := key) (key' := key') (fun x hx => by rw [hk x hx, lit_key_nat])]
  by_cases hsh : n = f.valency ∨ suppress = true
  · obtain ⟨q, lab, h1, h2, h3⟩ := ecFactionShort_spec hf.obj hc n
    have hEq : f.ecFaction arity suppress = .ok { part := q, dims := [Nat.factorial n] } := by
      unfold Boolf.ecFaction
      rw [if_neg (by rw [hc]; decide), if_pos ha, (ecCase_spec f arity suppress).2 n hn]
      simp only [bind, Except.bind]
      rw [if_pos (by simpa using hsh)]
      exact h1
    rw [hE] at hEq
    cases hEq
    simp only [h2.labels]
    constructor
    · rintro ⟨k, hk, rfl⟩
      have hk' : k < (revColexPerms n).length := by rw [length_revColexPerms]; exact hk
      have hs := List.getElem?_eq_getElem hk'
      obtain ⟨_, p, _, p2, p3, p4, p5, _⟩ := perm_at hs
      have hl := (h3 k _ hs).congr (w' := fun x => ((p.get x : Nat) : Int)) fun x hx => by rw [p5 x (hA x hx)]; rfl
      exact hdir hl (fun x hx => p2.wf.maps_below n (Or.inl ⟨p3, p4⟩) x (hA x hx)) (fun x _ y _ h => p2.wf.get_bijective.1 h)
    · rintro ⟨hg, r, r1, r2, r3⟩
      obtain ⟨s, s1, s2⟩ := extend_arrangement hA r1 r2
      obtain ⟨k, hk⟩ := List.mem_iff_getElem?.1 ((mem_revColexPerms n s).2 s1)
      refine ⟨k, by rw [← length_revColexPerms n]; exact (List.getElem?_eq_some_iff.1 hk).1, ?_⟩
      exact hrev hg r3 ((h3 k s hk).congr fun x hx => by rw [s2 x hx]; rfl)
  · have hs0 : suppress = false := by cases suppress <;> simp_all
    obtain ⟨q, lab, h1, h2, h3⟩ := ecFactionLong_spec hgd hc n
    have hEq : f.ecFaction arity suppress = .ok { part := q, dims := [Nat.factorial f.valency, Nat.choose n f.valency], combos := some (combinations (List.range n) f.valency) } := by
      unfold Boolf.ecFaction
      rw [if_neg (by rw [hc]; decide), if_pos ha, (ecCase_spec f arity suppress).2 n hn]
      simp only [bind, Except.bind]
      rw [if_neg (by simpa using hsh)]
      exact h1
    rw [hE] at hEq
    cases hEq
    simp only [h2.labels]
    have hC : (combinations (List.range n) f.valency).length = Nat.choose n f.valency := by rw [length_combinations, List.length_range]
    constructor
    · rintro ⟨x, hx, rfl⟩
      have hC0 : 0 < Nat.choose n f.valency := by
        rcases Nat.eq_zero_or_pos (Nat.choose n f.valency) with h | h
        · rw [h] at hx; simp at hx
        · exact h
      have a1 : x % Nat.choose n f.valency < (combinations (List.range n) f.valency).length := by rw [hC]; exact Nat.mod_lt _ hC0
      have a2 : x / Nat.choose n f.valency < (revColexPerms f.valency).length := by
        rw [length_revColexPerms]; exact Nat.div_lt_of_lt_mul (by rwa [Nat.mul_comm])
      obtain ⟨w, w1, w2, hl⟩ := h3 _ _ _ _ (List.getElem?_eq_getElem a2) (List.getElem?_eq_getElem a1)
      rw [Nat.div_add_mod'] at hl
      obtain ⟨c1, c2, c3⟩ := (mem_combinations_range _ _ _).1 (List.getElem_mem a1)
      have hwl : w.length = f.valency := by rw [w1.length_eq, c3]
      have hwn : w.Nodup := w1.nodup_iff.2 (c1.imp fun h => Nat.ne_of_lt h)
      have hix : ∀ x ∈ f.atomvals, f.atomvals.idxOf x < w.length := fun x hx => by
        rw [hwl, hgd.val]; exact List.idxOf_lt_length_of_mem hx
      have hwd : ∀ x (hx : x ∈ f.atomvals), w.getD (f.atomvals.idxOf x) 0 = w[f.atomvals.idxOf x]'(hix x hx) := fun x hx => by
        rw [List.getD_eq_getElem?_getD, List.getElem?_eq_getElem (hix x hx)]; rfl
      refine hdir hl (fun x hx => ?_) (fun x hx y hy h => ?_)
      · rw [hwd x hx]; exact c2 _ (w1.mem_iff.1 (List.getElem_mem _))
      · rw [hwd x hx, hwd y hy] at h
        have := (hwn.getElem_inj_iff).1 h
        exact (List.idxOf_inj hx).1 this
    · rintro ⟨hg, r, r1, r2, r3⟩
      obtain ⟨s, c, s1, s2, s3, s4⟩ := choice_arrangement (n := n) (nodup_map_on hgd.toSound.nodup r2) (by
        intro x hx
        obtain ⟨y, hy, rfl⟩ := List.mem_map.1 hx
        exact r1 y hy)
      rw [List.length_map, ← hgd.val] at s1 s2
      obtain ⟨k, hk⟩ := List.mem_iff_getElem?.1 ((mem_revColexPerms _ s).2 s1)
      obtain ⟨ci, hci⟩ := List.mem_iff_getElem?.1 s2
      obtain ⟨w, w1, w2, hl⟩ := h3 k s ci c hk hci
      have hw : w = f.atomvals.map r := arranged_eq s1 (by rw [w1.length_eq, s3.length_eq, List.length_map, hgd.val]) (by rw [List.length_map, hgd.val]) w2 s4
      refine ⟨k * Nat.choose n f.valency + ci, ?_, ?_⟩
      · have b1 : k < Nat.factorial f.valency := by rw [← length_revColexPerms f.valency]; exact (List.getElem?_eq_some_iff.1 hk).1
        have b2 : ci < Nat.choose n f.valency := by rw [← hC]; exact (List.getElem?_eq_some_iff.1 hci).1
        calc k * Nat.choose n f.valency + ci < k * Nat.choose n f.valency + Nat.choose n f.valency := by omega
          _ = (k + 1) * Nat.choose n f.valency := by rw [Nat.add_mul, Nat.one_mul]
          _ ≤ _ := Nat.mul_le_mul_right _ b1
      · refine hrev hg r3 (hl.congr fun x hx => ?_)
        rw [hw, List.getD_eq_getElem?_getD, List.getElem?_map, List.getElem?_eq_getElem (List.idxOf_lt_length_of_mem hx), List.getElem_idxOf]
        rfl

/-- **C95.** With and without abbreviation there are the same labels. -/
theorem C95_abbreviation (f : Boolf) (hf : Reach f) (arity : Option Int) (E F : EcPart) (hE : f.ecFaction arity false = .ok E)
    (hF : f.ecFaction arity true = .ok F) (g : Boolf) : g ∈ E.part.blockLabels.map Prod.snd ↔ g ∈ F.part.blockLabels.map Prod.snd := by
  by_cases hc : f.isConstant = true
  · have key : ∀ b G, f.ecFaction arity b = .ok G → ∀ g, g ∈ G.part.blockLabels.map Prod.snd ↔ g = f := by
      intro b G hG g
      have hlab : ∃ N, 0 < N ∧ Labelling G.part N fun _ => f := by
        by_cases h : b = false ∨ arity = none ∨ ∃ a, arity = some a ∧ a ≤ 0
        · obtain ⟨E', e1, _, _, e4⟩ := (C95_constant f hc arity b).2 h
          rw [hG] at e1
          cases e1
          exact ⟨1, by omega, e4⟩
        · push Not at h
          obtain ⟨h1, h2, h3⟩ := h
          obtain ⟨a, ha⟩ := Option.ne_none_iff_exists'.1 h2
          have := h3 a ha
          obtain ⟨E', e1, _, _, e4⟩ := (C95_constant f hc arity b).1 a.toNat (by omega) (by rw [ha]; congr 1; omega) (by cases b <;> simp_all)
          rw [hG] at e1
          cases e1
          exact ⟨_, Nat.factorial_pos _, e4⟩
      obtain ⟨N, hN, hL⟩ := hlab
      rw [hL.labels]
      exact ⟨fun ⟨_, _, h⟩ => h.symm, fun h => ⟨0, hN, h.symm⟩⟩
    rw [key _ _ hE, key _ _ hF]
  · rw [Bool.not_eq_true] at hc
    obtain ⟨_, n, hn⟩ := Places.le_of_ok hc hE
    rw [C95_members f hf hc arity _ n hn E hE, C95_members f hf hc arity _ n hn F hF]

/-- **C95.** In a partition of all permutations the block of 0 is a group of permutations, and the other blocks are its left cosets: two permutations are in the
same block iff the quotient of the one by the other is in the block of 0. -/
theorem C95_cosets (f : Boolf) (hf : Obj f) (hc : f.isConstant = false) (arity : Option Int) (suppress : Bool) (n : Nat) (hn : f.Places arity n)
    (h : n = f.valency ∨ suppress = true) (E : EcPart) (hE : f.ecFaction arity suppress = .ok E) (j k l : Nat) (hj : j < Nat.factorial n)
    (hk : k < Nat.factorial n) (hl : l < Nat.factorial n) (hkl : k ≠ l) (pj pk pl : Perm) (ej : intToPerm j = .ok pj) (ek : intToPerm k = .ok pk)
    (el : intToPerm l = .ok pl) (hq : ∀ x, pl.get (pj.get x) = pk.get x) :
    E.part.pairInSameBlock k l = true ↔ E.part.pairInSameBlock j (0 : Nat) = true := by
  obtain ⟨ha, _⟩ := Places.le_of_ok hc hE
  obtain ⟨q, lab, h1, h2, h3⟩ := ecFactionShort_spec hf hc n
  have hEq : f.ecFaction arity suppress = .ok { part := q, dims := [Nat.factorial n] } := by
    unfold Boolf.ecFaction
    rw [if_neg (by rw [hc]; decide), if_pos ha, (ecCase_spec f arity suppress).2 n hn]
    simp only [bind, Except.bind]
    rw [if_pos (by simpa using h)]
    exact h1
  rw [hE] at hEq
  cases hEq
  have hA : ∀ x ∈ f.atomvals, x < n := fun x hx => lt_of_lt_of_le (hf.good.toSound.adic_lt hx) (places_le hn)
  have key : ∀ i p, i < Nat.factorial n → intToPerm i = .ok p → Lits f (fun x => ((p.get x : Nat) : Int)) (lab i) ∧ Function.Bijective p.get := by
    intro i p hi hp
    have hs := List.getElem?_eq_getElem (show i < (revColexPerms n).length by rw [length_revColexPerms]; exact hi)
    obtain ⟨_, p', _, p2, p3, p4, p5, p'', p6, p7⟩ := perm_at hs
    rw [hp] at p6
    cases p6
    refine ⟨(h3 i _ hs).congr fun x hx => by rw [p5 x (hA x hx), p7]; rfl, ?_⟩
    rw [show p.get = p'.get from funext p7]
    exact p2.wf.get_bijective
  obtain ⟨p0, e0, _, _, r0⟩ := C15_rank_of_int 0
  have hp0 : ∀ x, p0.get x = x := by
    obtain ⟨_, p, _, p2, p3, p4, _, p', p6, p7⟩ := perm_at (n := 0) (k := 0) (s := []) (by decide)
    rw [e0] at p6
    cases p6
    intro x
    rw [p7, p2.wf.finite_bounded p3 (by omega)]
  have hj0 : j ≠ 0 := by
    rintro rfl
    rw [e0] at ej
    cases ej
    have hkl' : ∀ x, pk.get x = pl.get x := fun x => by rw [← hq, hp0]
    obtain ⟨pk', ek', ck, fk, rk⟩ := C15_rank_of_int k
    obtain ⟨pl', el', cl, fl, rl⟩ := C15_rank_of_int l
    rw [ek] at ek'; cases ek'
    rw [el] at el'; cases el'
    have : pk.leftRank = pl.leftRank := by
      have hL : pk.length = pl.length := by
        apply le_antisymm
        · rw [← C05_length_minimal pk ck fk]; intro i hi; rw [hkl', cl.wf.finite_bounded fl hi]
        · rw [← C05_length_minimal pl cl fl]; intro i hi; rw [← hkl', ck.wf.finite_bounded fk hi]
      rw [leftRank_extend ck fk (Nat.le_refl _), leftRank_extend cl fl (N := pk.length) (by omega)]
      congr 3
      exact List.map_congr_left fun x _ => hkl' x
    rw [rk, rl] at this
    exact hkl (Except.ok.inj this)
  show q.pairInSameBlock k l = true ↔ q.pairInSameBlock j (0 : Nat) = true
  rw [h2.same k l hk hl hkl, h2.same j 0 hj (Nat.factorial_pos n) hj0]
  obtain ⟨lj, _⟩ := key j pj hj ej
  obtain ⟨lk, _⟩ := key k pk hk ek
  obtain ⟨ll, bl⟩ := key l pl hl el
  obtain ⟨l0, _⟩ := key 0 p0 (Nat.factorial_pos n) e0
  constructor
  · intro e
    apply lj.1.ext l0.1
    intro a
    obtain ⟨inv, hinv⟩ : ∃ inv : Nat → Nat, ∀ x, inv (pl.get x) = x := ⟨Function.invFun pl.get, Function.leftInverse_invFun bl.1⟩
    have h' := lk.2 (fun y => a (inv y))
    rw [e, ll.2] at h'
    rw [lj.2, l0.2]
    simp only [lit_nat] at h' ⊢
    simp only [← hq, hinv] at h'
    simp only [hp0]
    exact h'.symm
  · intro e
    apply lk.1.ext ll.1
    intro a
    have h' := lj.2 (fun y => a (pl.get y))
    rw [e, l0.2] at h'
    rw [lk.2, ll.2]
    simp only [lit_nat] at h' ⊢
    simp only [← hq]
    simp only [hp0] at h'
    exact h'.symm

/-- `a and not b`: two functions for two places, six for three. -/
example : ∃ f E F, newTT (.str "0100".toList) none = .ok f ∧ Reach f ∧ f.ecFaction = .ok E ∧ E.dims = [2] ∧ E.part.pairInSameBlock 0 1 = false ∧
    f.ecFaction (some 3) = .ok F ∧ F.dims = [2, 3] ∧ F.combos = some [[0, 1], [0, 2], [1, 2]] ∧ F.part.blockLabels.length = 6 := by
  obtain ⟨_, e1, e2⟩ := newTT_explicit "0100".toList [false, true, false, false] [0, 1] 2 (by decide) (by decide) (by decide) (by intro n; simp; omega)
    (by decide) (by decide)
  exact ⟨_, _, _, e1 (by decide), e2.reach, rfl, rfl, by decide +kernel, rfl, by decide +kernel, by decide +kernel, by decide +kernel⟩

end Verif.BF
