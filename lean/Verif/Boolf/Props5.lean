import Verif.Boolf.Props4

/-!
# Properties C69 (values and substitutions), C70 (signed permutations act on functions)
-/

namespace Verif.BF
open Verif.Py Verif.BV Verif.P Verif.W
open Verif.A hiding Mat

/-- the value of a literal under an assignment -/
def lit (a : Nat → Bool) (z : Int) : Bool := a (logicAbs z).toNat ^^ decide (z < 0)

theorem lit_iff (key : Nat) (z : Int) : lit key.testBit z = decide (¬ FalseIn key z) := by
  unfold lit
  rw [Bool.eq_iff_iff, decide_eq_true_eq, falseIn_iff, Bool.not_eq_false]

theorem val_spec {f : Boolf} (h : Sound f) {v : List Bool} (hv : v.length = f.valency) (h0 : f.valency ≠ 0) :
    f.val (v.map fun b => (b.toNat : Int)) = .ok (f.root.vector.getD (valB v) false) := by
  unfold Boolf.val
  rw [if_pos (by simpa using hv)]
  cases v with
  | nil => exact absurd hv.symm h0
  | cons b v =>
    have hall : ((b :: v).map fun b => (b.toNat : Int)).all (fun x => decide (x = 0 ∨ x = 1)) = true := by
      rw [List.all_eq_true]
      intro x hx
      obtain ⟨y, _, rfl⟩ := List.mem_map.1 hx
      cases y <;> decide
    simp only [List.map_cons] at hall ⊢
    rw [if_pos hall, ← List.map_cons (f := fun b : Bool => (b.toNat : Int)), mk_list]
    simp only [bind, Except.bind]
    have hlt : valB (b :: v) < f.root.length := by
      unfold Binv.length
      rw [h.len, ← h.val, ← hv]
      exact valB_lt _
    rw [intval_eq, getItem_ok hlt]
    rw [List.getD_eq_getElem?_getD, List.getElem?_eq_getElem hlt]; rfl

theorem valBinvs_spec {f : Boolf} (h : Sound f) {bs : List Binv} {L : Nat} (hl : ∀ b ∈ bs, b.length = L) (hbs : bs.length = f.valency) (h0 : f.valency ≠ 0) :
    f.valBinvs bs = .ok ⟨(List.range L).map fun i => f.root.vector.getD (valB (bs.map fun b => b.vector.getD i false)) false⟩ := by
  unfold Boolf.valBinvs
  rw [if_pos hbs]
  cases bs with
  | nil => exact absurd hbs.symm h0
  | cons b bs =>
    simp only
    rw [hl b (by simp), mapM_ok (g := fun i => f.root.vector.getD (valB ((b :: bs).map fun b => b.vector.getD i false)) false)]
    · simp only [bind, Except.bind]
      exact mk_list _
    · intro i hi
      rw [List.mem_range] at hi
      rw [mapM_ok (g := fun b : Binv => b.vector.getD i false)]
      · simp only [bind, Except.bind]
        exact val_spec h (by simpa using hbs) h0
      · intro c hc
        have hic : i < c.length := by rw [hl c hc]; exact hi
        rw [getItem_ok hic, List.getD_eq_getElem?_getD, List.getElem?_eq_getElem hic]; rfl

theorem atompatterns_eq {atoms : List Int} (h : ∀ a ∈ atoms, (logicAbs a).toNat < atoms.length) :
    makeAtompatternsList atoms = .ok (atoms.map fun a => ⟨(List.range (2 ^ atoms.length)).map fun i => lit i.testBit a⟩) := by
  unfold makeAtompatternsList
  rw [mapM_ok]
  intro a ha
  rw [(atompattern_spec a atoms.length false).1 (h a ha)]
  simp [lit]

theorem sortedI_map_ofNat (l : List Nat) : (l.map Int.ofNat).insertionSort (· ≤ ·) = (sorted l).map Int.ofNat := by
  have p1 : ((l.map Int.ofNat).insertionSort (· ≤ ·)).Pairwise (· ≤ ·) := List.pairwise_insertionSort _ _
  have p2 : ((sorted l).map Int.ofNat).Pairwise (· ≤ ·) := by
    rw [List.pairwise_map]
    exact (sorted_pairwise l).imp (fun h => by simpa using h)
  have hp : ((l.map Int.ofNat).insertionSort (· ≤ ·)).Perm ((sorted l).map Int.ofNat) :=
    (List.perm_insertionSort _ _).trans ((sorted_perm l).symm.map _)
  exact List.Perm.eq_of_pairwise (fun a b _ _ h1 h2 => le_antisymm h1 h2) p1 p2 hp

/-- the atoms of signed atoms -/
def absN (perm : List Int) : List Nat := perm.map fun z => (logicAbs z).toNat

theorem logicAbs_nonneg (z : Int) : 0 ≤ logicAbs z := by unfold logicAbs inv; split <;> omega

theorem logicAbsVector_eq (perm : List Int) : logicAbsVector perm = (absN perm).map Int.ofNat := by
  unfold logicAbsVector absN
  rw [List.map_map]
  apply List.map_congr_left
  intro z _
  exact (Int.toNat_of_nonneg (logicAbs_nonneg z)).symm

theorem idxOf_map_ofNat (l : List Nat) (x : Nat) : (l.map Int.ofNat).idxOf (Int.ofNat x) = l.idxOf x := by
  induction l with
  | nil => rfl
  | cons y l ih =>
    rw [List.map_cons, List.idxOf_cons, List.idxOf_cons, ih]
    have : (Int.ofNat y == Int.ofNat x) = (y == x) := by
      rw [Bool.eq_iff_iff, beq_iff_eq, beq_iff_eq]; simp
    rw [this]

theorem perm_range_of_nodup {l : List Nat} (hl : l.Nodup) : (l.map (sorted l).idxOf).Perm (List.range l.length) := by
  have h1 : (sorted l).map (sorted l).idxOf = List.range l.length := by
    apply List.ext_getElem?
    intro i
    rw [List.getElem?_map]
    have hlen := (sorted_perm l).length_eq
    by_cases hi : i < l.length
    · rw [List.getElem?_eq_getElem (by omega), List.getElem?_range hi, Option.map_some, ((sorted_perm l).nodup_iff.2 hl).idxOf_getElem]
    · rw [List.getElem?_eq_none (by omega), List.getElem?_eq_none (by simpa using hi)]; rfl
  rw [← h1]
  exact (sorted_perm l).symm.map _

theorem vals_spec {f : Boolf} (h : Sound f) {perm : List Int} (hl : perm.length = f.valency) (h0 : f.valency ≠ 0) :
    ((absN perm).Perm (List.range f.valency) →
      f.vals perm = .ok ⟨(List.range (2 ^ f.valency)).map fun i => f.root.vector.getD (valB (perm.map (lit i.testBit))) false⟩) ∧
    (¬ (absN perm).Perm (List.range f.valency) → f.vals perm = .error .unexpectedArgument) := by
  unfold Boolf.vals
  rw [if_pos hl, logicAbsVector_eq, sortedI_map_ofNat]
  constructor
  · intro hp
    have hs : sorted (absN perm) = List.range f.valency := by
      have p1 := sorted_pairwise (absN perm)
      have p2 : (List.range f.valency).Pairwise (· ≤ ·) := List.pairwise_lt_range.imp (fun h => h.le)
      exact List.Perm.eq_of_pairwise (fun a b _ _ h1 h2 => le_antisymm h1 h2) p1 p2 ((sorted_perm _).trans hp)
    rw [if_pos (by rw [hs]), atompatterns_eq]
    · simp only [bind, Except.bind]
      rw [valBinvs_spec h (L := 2 ^ f.valency) _ (by simpa using hl) h0]
      · refine congrArg Except.ok (congrArg Binv.mk (List.map_congr_left ?_))
        intro i hi
        rw [List.mem_range, ← hl] at hi
        rw [List.map_map]
        congr 2
        apply List.map_congr_left
        intro z _
        simp only [Function.comp_apply]
        rw [List.getD_eq_getElem?_getD, List.getElem?_map, List.getElem?_range hi]; rfl
      · intro b hb
        obtain ⟨z, _, rfl⟩ := List.mem_map.1 hb
        simp [Binv.length, hl]
    · intro z hz
      have : (logicAbs z).toNat ∈ absN perm := List.mem_map.2 ⟨z, hz, rfl⟩
      rw [hl]
      exact List.mem_range.1 (hp.mem_iff.1 this)
  · intro hp
    rw [if_neg]
    intro hc
    apply hp
    have hs : sorted (absN perm) = List.range f.valency :=
      List.map_injective_iff.2 (fun x y h => by simpa using h) hc
    rw [← hs]
    exact (sorted_perm _).symm

theorem logicAbs_negate (k : Nat) (b : Bool) : (logicAbs (logicNegate (Int.ofNat k) b)).toNat = k ∧ (logicNegate (Int.ofNat k) b < 0 ↔ b = true) := by
  unfold logicNegate logicAbs inv
  cases b
  · have : ¬ (Int.ofNat k < 0) := by simp
    simp
    omega
  · simp
    constructor
    · rw [if_pos (by omega)]; simp
    · omega

theorem zipWith_map_same {α β γ δ : Type} (g : β → γ → δ) (u : α → β) (w : α → γ) (l : List α) :
    List.zipWith g (l.map u) (l.map w) = l.map fun x => g (u x) (w x) := by
  induction l with
  | nil => rfl
  | cons x l ih => simp [ih]

theorem apply_spec {f : Boolf} (h : Sound f) {perm : List Int} (hl : perm.length = f.valency) (h0 : f.valency ≠ 0) :
    ((absN perm).Nodup → ∃ g, f.apply perm = .ok g ∧ Canon g ∧
      (∀ a, g.eval a = f.root.vector.getD (valB (perm.map (lit a))) false)) ∧
    (¬ (absN perm).Nodup → f.apply perm = .error .unexpectedArgument) := by
  have hsigned : List.zipWith (fun k neg => logicNegate (Int.ofNat k) neg)
      ((logicAbsVector perm).map ((logicAbsVector perm).insertionSort (· ≤ ·)).idxOf) (perm.map fun z => decide (z < 0)) =
      perm.map fun z => logicNegate (Int.ofNat ((sorted (absN perm)).idxOf (logicAbs z).toNat)) (decide (z < 0)) := by
    have e : (logicAbsVector perm).map ((logicAbsVector perm).insertionSort (· ≤ ·)).idxOf =
        perm.map fun z => (sorted (absN perm)).idxOf (logicAbs z).toNat := by
      rw [logicAbsVector_eq, sortedI_map_ofNat, List.map_map]
      unfold absN
      rw [List.map_map]
      apply List.map_congr_left
      intro z _
      exact idxOf_map_ofNat _ _
    rw [e, zipWith_map_same]
  set signed := perm.map fun z => logicNegate (Int.ofNat ((sorted (absN perm)).idxOf (logicAbs z).toNat)) (decide (z < 0)) with hsd
  have hslen : signed.length = f.valency := by rw [hsd]; simpa using hl
  have habs : absN signed = (absN perm).map (sorted (absN perm)).idxOf := by
    rw [hsd]
    unfold absN
    rw [List.map_map, List.map_map]
    apply List.map_congr_left
    intro z _
    exact (logicAbs_negate _ _).1
  have hplen : (absN perm).length = f.valency := by unfold absN; simpa using hl
  constructor
  · intro hnd
    have hv := (vals_spec h hslen h0).1 (by rw [habs, ← hplen]; exact perm_range_of_nodup hnd)
    have hasc := sorted_pairwise_lt hnd
    have hlen : (sorted (absN perm)).length = f.valency := (sorted_perm _).length_eq.trans hplen
    obtain ⟨g, g1, g2, g3⟩ := ttDeflated_asc
      (b := ⟨(List.range (2 ^ f.valency)).map fun i => f.root.vector.getD (valB (signed.map (lit i.testBit))) false⟩) hasc (by simp [Binv.length, hlen])
    refine ⟨g, ?_, g2, fun a => ?_⟩
    · unfold Boolf.apply
      simp only
      rw [if_pos hl, hsigned, hv]
      simp only [bind, Except.bind]
      rw [logicAbsVector_eq, sortedI_map_ofNat, newTT_binv, g1]
    · have hlt : valB ((sorted (absN perm)).map a) < 2 ^ f.valency := by rw [← hlen]; exact valB_map_lt _ _
      rw [g3, List.getD_eq_getElem?_getD, List.getElem?_map, List.getElem?_range hlt, Option.map_some, Option.getD_some]
      congr 2
      rw [hsd, List.map_map]
      apply List.map_congr_left
      intro z hz
      simp only [Function.comp_apply]
      unfold lit
      rw [(logicAbs_negate _ _).1]
      have hmem : (logicAbs z).toNat ∈ sorted (absN perm) := mem_sorted.2 (List.mem_map.2 ⟨z, hz, rfl⟩)
      have hidx := List.idxOf_lt_length_iff.2 hmem
      rw [testBit_valB_map, List.getElem?_eq_getElem hidx, Option.map_some, Option.getD_some, List.getElem_idxOf]
      congr 1
      rw [Bool.eq_iff_iff, decide_eq_true_eq, (logicAbs_negate _ _).2]
  · intro hnd
    have hv := (vals_spec h hslen h0).2 (by
      rw [habs]
      intro hp
      exact hnd (List.Nodup.of_map _ (hp.nodup_iff.2 List.nodup_range)))
    unfold Boolf.apply
    simp only
    rw [if_pos hl, hsigned, hv]
    rfl

/-! ## C69 -/

/-- **C69.** `val` with one argument for each atom gives the value for a key with these bits. -/
theorem C69_val (f : Boolf) (hf : Obj f) :
    (∀ (v : List Bool) (key : Nat), v.length = f.valency → v ≠ [] → (∀ k x : Nat, f.atomvals[k]? = some x → v[k]? = some (key.testBit x)) →
      f.val (v.map fun b => (b.toNat : Int)) = f.getItem key) ∧
    (∀ l : List Int, l.length ≠ f.valency → f.val l = .error .sarityMismatch) ∧
    (∀ l : List Int, l.length = f.valency → (∃ x ∈ l, x ≠ 0 ∧ x ≠ 1) → f.val l = .error .unexpectedArgument) ∧
    (f.valency = 0 → f.val [] = .error .indexError) := by
  have h := hf.good.toSound
  refine ⟨fun v key hv hne hk => ?_, fun l hl => ?_, fun l hl hx => ?_, fun h0 => ?_⟩
  · rw [val_spec h hv (by rw [← hv]; simpa using hne), getItem_eq h]
    refine congrArg Except.ok ?_
    unfold Boolf.eval
    congr 2
    apply List.ext_getElem?
    intro k
    rw [List.getElem?_map]
    by_cases hkl : k < f.atomvals.length
    · rw [List.getElem?_eq_getElem hkl, hk k _ (List.getElem?_eq_getElem hkl)]; rfl
    · rw [List.getElem?_eq_none (show f.atomvals.length ≤ k by omega), List.getElem?_eq_none (by rw [hv, h.val]; omega)]; rfl
  · unfold Boolf.val
    rw [if_neg hl]
  · unfold Boolf.val
    obtain ⟨x, hx, hx0, hx1⟩ := hx
    rw [if_pos hl]
    cases l with
    | nil => cases hx
    | cons y l =>
      simp only
      rw [if_neg]
      rw [List.all_eq_true]
      intro hc
      have := hc x hx
      rw [decide_eq_true_eq] at this
      omega
  · unfold Boolf.val
    rw [if_pos (by rw [h0]; rfl)]

/-- **C69.** `val` with Binvs of the same length works place by place. -/
theorem C69_val_binvs (f : Boolf) (hf : Obj f) (bs : List Binv) (hne : bs ≠ []) (hb : bs.length = f.valency) (L : Nat) (hl : ∀ b ∈ bs, b.length = L) :
    ∃ r, f.valBinvs bs = .ok r ∧ r.length = L ∧
      ∀ (i : Nat) (v : List Bool), i < L → bs.map (·.vector[i]?) = v.map some → f.val (v.map fun b => (b.toNat : Int)) = r.getItem i := by
  have h := hf.good.toSound
  have h0 : f.valency ≠ 0 := by rw [← hb]; simpa using hne
  refine ⟨_, valBinvs_spec h hl hb h0, by simp [Binv.length], fun i v hi hv => ?_⟩
  have hvl : v.length = f.valency := by
    have := congrArg List.length hv
    simp only [List.length_map] at this
    omega
  rw [val_spec h hvl h0, getItem_ok (by simpa [Binv.length] using hi)]
  have e : (bs.map fun b => b.vector.getD i false) = v := by
    have h1 : (bs.map (·.vector[i]?)).map (fun o => o.getD false) = (v.map some).map (fun o => o.getD false) := by rw [hv]
    rw [List.map_map, List.map_map] at h1
    simpa [Function.comp_def, List.getD_eq_getElem?_getD] using h1
  simp [← e]

/-- **C69.** `apply` with signed atoms, one for each atom of the function: the value of the new function for a key is the value of the old one for a key in
which each atom has the value that the corresponding literal has for the new key. -/
theorem C69_apply (f : Boolf) (hf : Obj f) (perm : List Int) :
    (perm.length ≠ f.valency → f.apply perm = .error .sarityMismatch) ∧
    (perm.length = f.valency → perm ≠ [] → (∀ i j : Nat, i < j → j < perm.length → (perm[i]?.map fun z => if z < 0 then -z - 1 else z) ≠ perm[j]?.map fun z => if z < 0 then -z - 1 else z) →
      ∃ g, f.apply perm = .ok g ∧ Reach g ∧
        ∀ key key' : Nat, (∀ (k x : Nat) (z : Int), f.atomvals[k]? = some x → perm[k]? = some z → key'.testBit x = decide (¬ FalseIn key z)) →
          g.getItem key = f.getItem key') ∧
    (perm.length = f.valency → (∃ i j : Nat, i < j ∧ j < perm.length ∧ (perm[i]?.map fun z => if z < 0 then -z - 1 else z) = perm[j]?.map fun z => if z < 0 then -z - 1 else z) →
      f.apply perm = .error .unexpectedArgument) ∧
    (f.valency = 0 → f.apply [] = .error .indexError) := by
  have h := hf.good.toSound
  have key : ∀ i j : Nat, i < perm.length → j < perm.length →
      ((perm[i]?.map fun z => if z < 0 then -z - 1 else z) = (perm[j]?.map fun z => if z < 0 then -z - 1 else z) ↔ (absN perm)[i]? = (absN perm)[j]?) := by
    intro i j hi hj
    unfold absN
    rw [List.getElem?_map, List.getElem?_map, List.getElem?_eq_getElem hi, List.getElem?_eq_getElem hj]
    simp only [Option.map_some, Option.some.injEq, logicAbs_toNat]
    split <;> split <;> omega
  have hal : (absN perm).length = perm.length := by simp [absN]
  refine ⟨fun hl => ?_, fun hl hne hd => ?_, fun hl hd => ?_, fun h0 => ?_⟩
  · unfold Boolf.apply
    rw [if_neg hl]
  · have hnd : (absN perm).Nodup := by
      rw [List.nodup_iff_getElem?_ne_getElem?]
      intro i j hij hj hc
      rw [hal] at hj
      exact hd i j hij hj ((key i j (by omega) hj).2 hc)
    obtain ⟨g, g1, g2, g3⟩ := (apply_spec h hl (by rw [← hl]; simpa using hne)).1 hnd
    refine ⟨g, g1, g2.reach, fun k k' hk => ?_⟩
    rw [getItem_eq g2.toSound, getItem_eq h, g3]
    refine congrArg Except.ok ?_
    unfold Boolf.eval
    congr 2
    apply List.ext_getElem?
    intro i
    rw [List.getElem?_map, List.getElem?_map]
    by_cases hi : i < perm.length
    · have hi' : i < f.atomvals.length := by rw [← h.val, ← hl]; exact hi
      rw [List.getElem?_eq_getElem hi, List.getElem?_eq_getElem hi', Option.map_some, Option.map_some,
        hk i _ _ (List.getElem?_eq_getElem hi') (List.getElem?_eq_getElem hi), lit_iff]
    · have hi' : ¬ i < f.atomvals.length := by rw [← h.val, ← hl]; exact hi
      rw [List.getElem?_eq_none (by omega), List.getElem?_eq_none (by omega)]; rfl
  · obtain ⟨i, j, hij, hj, hc⟩ := hd
    refine (apply_spec h hl (by omega)).2 fun hnd => ?_
    rw [List.nodup_iff_getElem?_ne_getElem?] at hnd
    exact hnd i j hij (by omega) ((key i j (by omega) hj).1 hc)
  · unfold Boolf.apply
    rw [if_pos (by rw [h0]; rfl)]
    simp only [List.map_nil, logicAbsVector, List.insertionSort_nil, List.zipWith_nil_left]
    unfold Boolf.vals
    rw [if_pos (by rw [h0]; rfl), h0, if_pos (by rfl)]
    simp only [bind, Except.bind]
    have : makeAtompatternsList [] = .ok [] := rfl
    rw [this]
    unfold Boolf.valBinvs
    rw [h0]
    rfl

example : ∃ f : Boolf, Obj f ∧ f.valency = 2 ∧ f.atomvals = [1, 3] := by
  obtain ⟨f, _, _, _, f2, _, f3, _⟩ := two_ways
  exact ⟨f, f2.obj, by rw [f2.canon.val, f3]; rfl, f3⟩

/-! ## C70 -/

theorem logicAbs_cases (z : Int) : z = ((logicAbs z).toNat : Int) ∨ z = inv ((logicAbs z).toNat : Int) := by
  unfold logicAbs inv
  split <;> omega

theorem value_inj {s : SG.SigPerm} (hs : SG.Finite s) {x y : Nat} (h : (logicAbs (s.value x)).toNat = (logicAbs (s.value y)).toNat) : x = y := by
  obtain ⟨_, _, _, hu, _⟩ := SG.C31_sequence s hs
  obtain ⟨i, _, hi⟩ := hu (logicAbs (s.value x)).toNat
  have hx := hi x (logicAbs_cases _)
  have hy := hi y (by simp only; rw [h]; exact logicAbs_cases _)
  rw [hx, hy]

/-- a list of different entries, chosen by the atoms -/
theorem apply_value {f : Boolf} (hf : Good f) {w : Nat → Int} (hw : ∀ x y, (logicAbs (w x)).toNat = (logicAbs (w y)).toNat → x = y)
    (hc : f.isConstant = false) :
    ∃ g, f.apply (f.atomvals.map w) = .ok g ∧ Canon g ∧ ∀ a, g.eval a = f.eval fun x => lit a (w x) := by
  have hne : f.atomvals ≠ [] := fun h => by rw [hf.const.2 h] at hc; cases hc
  obtain ⟨g, g1, g2, g3⟩ := (apply_spec hf.toSound (perm := f.atomvals.map w) (by rw [List.length_map, hf.val])
    (by rw [hf.val]; simpa using hne)).1 (by
      unfold absN
      rw [List.map_map]
      exact hf.toSound.nodup.map (fun x y h => hw x y h))
  refine ⟨g, g1, g2, fun a => ?_⟩
  rw [g3, List.map_map]
  rfl

theorem pick {f : Boolf} (h : Sound f) {n : Nat} (hn : f.adicity ≤ n) (w : Nat → Int) :
    f.atomvals.mapM (entryAt ((List.range n).map w)) = .ok (f.atomvals.map w) := by
  apply mapM_ok
  intro x hx
  have hlt : x < n := lt_of_lt_of_le (h.adic_lt hx) hn
  unfold entryAt
  rw [List.getElem?_map, List.getElem?_range hlt]
  rfl

theorem applySigperm_spec {f : Boolf} (hf : Good f) {s : SG.SigPerm} (hs : SG.Finite s) :
    (f.isConstant = true → f.applySigperm (.sigperm s) = .ok f) ∧
    (f.isConstant = false → f.applySigperm (.sigperm s) = f.apply (f.atomvals.map s.value)) := by
  unfold Boolf.applySigperm
  constructor
  · intro h; rw [if_pos h]
  · intro h
    rw [if_neg (by rw [h]; decide)]
    simp only [bind, Except.bind]
    rw [(SG.C31_sequence s hs).1 _ (le_max_right _ _)]
    simp only
    rw [pick hf.toSound (le_max_left _ _)]

/-- the action: the result is the function with the literals substituted -/
theorem action {f : Boolf} (hf : Obj f) {s : SG.SigPerm} (hs : SG.Finite s) :
    ∃ g, f.applySigperm (.sigperm s) = .ok g ∧ Obj g ∧ (Canon f → Canon g) ∧ ∀ a, g.eval a = f.eval fun x => lit a (s.value x) := by
  obtain ⟨h1, h2⟩ := applySigperm_spec hf.good hs
  by_cases hc : f.isConstant = true
  · exact ⟨f, h1 hc, hf, id, fun a => Boolf.eval_congr (by rw [hf.good.const.1 hc]; simp)⟩
  · rw [Bool.not_eq_true] at hc
    obtain ⟨g, g1, g2, g3⟩ := apply_value hf.good (w := s.value) (fun x y => value_inj hs) hc
    exact ⟨g, (h2 hc).trans g1, g2.reach.obj, fun _ => g2, g3⟩

/-- **C70.** A signed permutation `s` acts on each function: the value of the new function for a key is the value of the old one for a key in which each
atom `x` has the value that the literal `s(x)` has for the new key. -/
theorem C70_action (f : Boolf) (hf : Obj f) (s : SG.SigPerm) (hs : SG.Finite s) :
    ∃ g, f.applySigperm (.sigperm s) = .ok g ∧ Obj g ∧ (Reach f → Reach g) ∧
      ∀ key key' : Nat, (∀ x ∈ f.atomvals, key'.testBit x = decide (¬ FalseIn key (s.value x))) → g.getItem key = f.getItem key' := by
  obtain ⟨g, g1, g2, g3, g4⟩ := action hf hs
  refine ⟨g, g1, g2, fun h => (g3 h.canon).reach, fun key key' hk => ?_⟩
  rw [getItem_eq g2.good.toSound, getItem_eq hf.good.toSound, g4]
  refine congrArg Except.ok (Boolf.eval_congr fun x hx => ?_)
  rw [hk x hx, lit_iff]

theorem lit_lit (a : Nat → Bool) (t : SG.SigPerm) (z : Int) : lit (fun y => lit a (t.value y)) z = lit a (t.apply z) := by
  unfold SG.SigPerm.apply lit
  by_cases hz : z < 0
  · have e1 : logicAbs z = inv z := by unfold logicAbs; rw [if_pos hz]
    rw [if_pos hz, e1]
    have e2 : ∀ y : Int, logicAbs (inv y) = logicAbs y := by intro y; unfold logicAbs inv; split <;> split <;> omega
    have e3 : ∀ y : Int, decide (inv y < 0) = !decide (y < 0) := by
      intro y
      rw [Bool.eq_iff_iff]
      unfold inv
      simp
      omega
    rw [e2, e3, decide_eq_true hz]
    simp only
    cases a (logicAbs (t.value (inv z).toNat)).toNat <;> cases decide (t.value (inv z).toNat < 0) <;> rfl
  · have e1 : logicAbs z = z := by unfold logicAbs; rw [if_neg hz]
    rw [if_neg hz, e1, decide_eq_false hz, Bool.xor_false]

/-- **C70.** Acting with `s` and then with `t` is acting with the product `t * s`. -/
theorem C70_composition (f : Boolf) (hf : Reach f) (s t : SG.SigPerm) (hs : SG.Finite s) (ht : SG.Finite t) :
    ∃ g h u, f.applySigperm (.sigperm s) = .ok g ∧ g.applySigperm (.sigperm t) = .ok h ∧ t.mul s = .ok u ∧ f.applySigperm (.sigperm u) = .ok h := by
  obtain ⟨g, g1, g2, g3, g4⟩ := action hf.obj hs
  obtain ⟨h, h1, h2, h3, h4⟩ := action g2 ht
  obtain ⟨u, u1, u2, _, u3, _⟩ := SG.C32_product t s ht hs
  obtain ⟨k, k1, k2, k3, k4⟩ := action hf.obj u2
  refine ⟨g, h, u, g1, h1, u1, k1.trans (congrArg Except.ok ?_)⟩
  refine (k3 hf.canon).ext (h3 (g3 hf.canon)) fun a => ?_
  rw [k4, h4, g4]
  refine Boolf.eval_congr fun x _ => ?_
  rw [u3, lit_lit]

theorem lit_nat (a : Nat → Bool) (n : Nat) : lit a (n : Int) = a n := by
  unfold lit logicAbs
  have : ¬ ((n : Int) < 0) := by omega
  rw [if_neg this, decide_eq_false this]
  simp

/-- **C70.** Acting with a neutral signed permutation changes nothing. -/
theorem C70_neutral (f : Boolf) (hf : Reach f) (e : SG.SigPerm) (he : SG.Finite e) (hn : e.neutral = true) :
    f.applySigperm (.sigperm e) = .ok f := by
  obtain ⟨g, g1, g2, g3, g4⟩ := action hf.obj he
  rw [g1]
  refine congrArg Except.ok ((g3 hf.canon).ext hf.canon fun a => ?_)
  rw [g4]
  refine Boolf.eval_congr fun x _ => ?_
  rw [(SG.C62_flags e he).1.1 hn, lit_nat]

/-- **C70.** Acting with the inverse undoes the action, on both sides. -/
theorem C70_inverse (f : Boolf) (hf : Reach f) (s : SG.SigPerm) (hs : SG.Finite s) :
    ∃ u g h, s.inverse = .ok u ∧ f.applySigperm (.sigperm s) = .ok g ∧ g.applySigperm (.sigperm u) = .ok f ∧
      f.applySigperm (.sigperm u) = .ok h ∧ h.applySigperm (.sigperm s) = .ok f := by
  obtain ⟨u, _, _, _, u1, u2, _, _, u3, _⟩ := SG.C32_inverse s hs
  obtain ⟨g, g1, g2, g3, g4⟩ := action hf.obj hs
  obtain ⟨h, h1, h2, h3, h4⟩ := action hf.obj u2
  obtain ⟨g', g1', g2', g3', g4'⟩ := action g2 u2
  obtain ⟨h', h1', h2', h3', h4'⟩ := action h2 hs
  refine ⟨u, g, h, u1, g1, g1'.trans (congrArg Except.ok ?_), h1, h1'.trans (congrArg Except.ok ?_)⟩
  · refine (g3' (g3 hf.canon)).ext hf.canon fun a => ?_
    rw [g4', g4]
    refine Boolf.eval_congr fun x _ => ?_
    rw [lit_lit, (u3 x).1, lit_nat]
  · refine (h3' (h3 hf.canon)).ext hf.canon fun a => ?_
    rw [h4', h4]
    refine Boolf.eval_congr fun x _ => ?_
    rw [lit_lit, (u3 x).2, lit_nat]

/-- **C70.** A finite permutation acts like the signed permutation with the same entries. -/
theorem C70_perm (f : Boolf) (hf : Obj f) (p : Perm) (hfin : p.perilen = none) (s : SG.SigPerm) (hs : SG.Finite s)
    (he : ∀ i, s.value i = p.get i) : f.applySigperm (.perm p) = f.applySigperm (.sigperm s) := by
  by_cases hc : f.isConstant = true
  · rw [(applySigperm_spec hf.good hs).1 hc]
    unfold Boolf.applySigperm
    rw [if_pos hc]
  · rw [Bool.not_eq_true] at hc
    rw [(applySigperm_spec hf.good hs).2 hc]
    unfold Boolf.applySigperm
    rw [if_neg (by rw [hc]; decide)]
    simp only [bind, Except.bind]
    rw [((C11_sequence p _).1 hfin).1 (le_max_right _ _)]
    simp only [Except.map, List.map_map]
    have e : (Int.ofNat ∘ p.get) = s.value := funext fun i => (he i).symm
    rw [e]
    rw [pick hf.good.toSound (le_max_left _ _)]

/-- **C70.** A list acts like the signed permutation that is built from it; a list that is no signed permutation is rejected (unless the function is
constant). -/
theorem C70_list (f : Boolf) (l : List Int) :
    ((l.map (fun z => if z < 0 then (-z - 1).toNat else z.toNat)).Perm (List.range l.length) →
      ∃ s, SG.new { sequence := some l } = .ok s ∧ SG.Finite s ∧ f.applySigperm (.list l) = f.applySigperm (.sigperm s)) ∧
    (¬ (l.map (fun z => if z < 0 then (-z - 1).toNat else z.toNat)).Perm (List.range l.length) →
      f.applySigperm (.list l) = if f.isConstant then .ok f else .error .sequenceError) := by
  constructor
  · intro h
    obtain ⟨s, s1, s2, _⟩ := (SG.C31_of_sequence l).1 h
    refine ⟨s, s1, s2, ?_⟩
    unfold Boolf.applySigperm
    simp only [s1, bind, Except.bind]
  · intro h
    have := (SG.C31_of_sequence l).2 h
    unfold Boolf.applySigperm
    simp only [this, bind, Except.bind]

example : ∃ s, SG.new { sequence := some [-3, 0, 1] } = .ok s ∧ SG.Finite s ∧ s.value 0 = -3 := by
  obtain ⟨s, s1, s2, s3⟩ := (SG.C31_of_sequence [-3, 0, 1]).1 (by decide)
  exact ⟨s, s1, s2, s3 0⟩

end Verif.BF
