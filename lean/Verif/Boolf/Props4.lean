import Verif.Boolf.Props3

/-!
# Properties C66 (skip_deflation), C67 (lists of operands), C68 (fullspots)
-/

namespace Verif.BF
open Verif.Py Verif.BV Verif.P Verif.W
open Verif.A hiding Mat

/-! ## C66 -/

/-- **C66.** `is_inflated` tells whether some stored atom has no influence on the value. -/
theorem C66_is_inflated (f : Boolf) (hf : Obj f) :
    f.isInflated = true ↔ ∃ x ∈ f.atomvals, ∀ key : Nat, f.getItem key = f.getItem (key ^^^ 2 ^ x) := by
  refine Iff.trans hf.good.flag ?_
  refine exists_congr fun x => and_congr_right fun _ => ?_
  rw [dep_key hf.good.toSound]
  push Not
  rfl

theorem Canon.reach {f : Boolf} (h : Canon f) : Reach f := by
  obtain ⟨g, g1, g2, g3⟩ := ttDeflated_asc h.asc h.len
  have e : newTT (.binv f.root) (some (f.atomvals.map Int.ofNat)) = .ok g := (newTT_binv f.root.vector _).trans g1
  have : g = f := g2.ext h g3
  rw [this] at e
  exact reach_newTT e

/-- **C66.** Each object has the same values as the canonical object that is built from its table and its atoms, and is the same object iff it is not
inflated. -/
theorem C66_deflated (f : Boolf) (hf : Obj f) :
    ∃ g, newTT (.binv f.root) (some (f.atomvals.map Int.ofNat)) = .ok g ∧ Reach g ∧ (∀ key : Nat, g.getItem key = f.getItem key) ∧
      (g = f ↔ f.isInflated = false) := by
  have h := hf.good
  obtain ⟨g, L, g1, g2, g3, g4, g5, _⟩ := C64_accepts f.root.vector f.atomvals h.nodup h.len
  obtain rfl := g5 h.asc
  have hto : (f.atomvals.map Int.ofNat).map Int.toNat = f.atomvals := by rw [List.map_map]; exact List.map_id _
  obtain ⟨g', e1, e2, e3⟩ := ttDeflated_some (b := f.root) (A := f.atomvals.map Int.ofNat) (L := f.atomvals)
    (List.Nodup.map (f := Int.ofNat) (fun x y h => by simpa using h) h.nodup) (by simp) (by simpa [Binv.length] using h.len) (by rwa [hto])
  rw [← newTT_binv, g1] at e1
  cases e1
  have hev : ∀ a, g.eval a = f.eval a := e3
  refine ⟨g, g1, g2, fun key => by rw [getItem_eq e2.toSound, getItem_eq h.toSound, hev], ?_, fun hi => e2.ext (h.canon hi) hev⟩
  rintro rfl
  exact e2.infl

/-- **C66.** With `skip_deflation` the function has all given atoms, and the same values as without. -/
theorem C66_skip (v : List Bool) (A : List Nat) (hd : A.Nodup) (hne : A ≠ []) (hl : v.length = 2 ^ A.length) :
    ∃ f g, newTT (.binv ⟨v⟩) (some (A.map Int.ofNat)) none true = .ok f ∧ newTT (.binv ⟨v⟩) (some (A.map Int.ofNat)) = .ok g ∧
      f.atomvals.Perm A ∧ f.atomvals.Pairwise (· < ·) ∧ ∀ key : Nat, f.getItem key = g.getItem key := by
  have hto : (A.map Int.ofNat).map Int.toNat = A := by rw [List.map_map]; exact List.map_id _
  have hdI : (A.map Int.ofNat).Nodup := List.Nodup.map (f := Int.ofNat) (fun x y h => by simpa using h) hd
  have hlI : (⟨v⟩ : Binv).length = 2 ^ (A.map Int.ofNat).length := by simpa [Binv.length] using hl
  obtain ⟨L, hL, hp⟩ := readOrder_exists hd
  obtain ⟨g, g1, g2, g3⟩ := ttDeflated_some (b := ⟨v⟩) (A := A.map Int.ofNat) (L := L) hdI (by simp) hlI (by rwa [hto])
  obtain ⟨c, c1, c2, c3⟩ := reorder_spec (b := ⟨v⟩) hd hl hL
  have hs : sorted A ≠ [] := fun h => hne (by have := (sorted_perm A).length_eq; rw [h] at this; exact List.length_eq_zero_iff.1 this.symm)
  obtain ⟨m, m1, m2, m3⟩ := pyMaxNat_ok hs
  have hcl : c.length = 2 ^ (sorted A).length := by rw [c2, (sorted_perm A).length_eq]; exact hl
  obtain ⟨d, d1, d2, d3⟩ := ttDeflated_none (b := c) hcl
  have hcheck : ttCheck ⟨v⟩ (some (A.map Int.ofNat)) = .ok () := by
    unfold ttCheck
    simp only
    rw [if_pos (dedup_length_iff.2 hdI), if_pos hlI, if_pos (by rw [hlI]; exact Nat.two_pow_pos _)]
  have hatoms : ttAtoms ⟨v⟩ (some (A.map Int.ofNat)) = .ok (c, sorted A) := by
    obtain ⟨k, k1, k2, _⟩ := pyMin_ok (l := A.map Int.ofNat) (by simpa using hne)
    obtain ⟨y, _, rfl⟩ := List.mem_map.1 k2
    unfold ttAtoms
    simp only [k1]
    rw [if_pos (by simp), hto, c1]
  have hskip : newTT (.binv ⟨v⟩) (some (A.map Int.ofNat)) none true =
      .ok ⟨c, sorted A, (sorted A).length, m + 1, false, decide (d.valency < (sorted A).length)⟩ := by
    unfold newTT
    simp only [ttBinv, mk_binv, bind, Except.bind, if_true]
    unfold ttSkip
    simp only [hcheck, hatoms, m1, d1, bind, Except.bind, pure, Except.pure]
  refine ⟨_, g, hskip, by rw [newTT_binv, g1], sorted_perm A, sorted_pairwise_lt hd, fun key => ?_⟩
  rw [getItem_eq g2.toSound, getItem_eq (good_newTT hskip).toSound, g3, ← c3]
  rfl

/-- **C66.** There is no object without atoms with `skip_deflation`. -/
theorem C66_skip_no_atoms (b : Bool) :
    newTT (.binv ⟨[b]⟩) none none true = .error .valueError ∧ newTT (.binv ⟨[b]⟩) (some []) none true = .error .valueError ∧
    newTT (.bool b) none none true = .error .argCombo := by
  cases b <;> exact ⟨rfl, rfl, rfl⟩

/-- **C66.** An inflated object differs from the canonical one with the same values. -/
theorem C66_inflated_differs : ∃ f, newTT (.list [0, 0, 1, 1]) (some [0, 1]) none true = .ok f ∧ Obj f ∧ f.isInflated = true ∧
    f.eq (setUnary 1) = false ∧ ∀ key : Nat, f.getItem key = (setUnary 1).getItem key := by
  obtain ⟨f, g, f1, g1, f2, f3, f4⟩ := C66_skip [false, false, true, true] [0, 1] (by decide) (by decide) rfl
  have f1' : newTT (.list [0, 0, 1, 1]) (some [0, 1]) none true = .ok f := by
    rw [← f1]
    exact (C64_formats [false, false, true, true] _ _ "0011".toList (by decide)).1
  have hA : f.atomvals = [0, 1] := eq_of_mem_iff_of_lt f3 (by decide) (fun x => f2.mem_iff)
  obtain ⟨g', g1', g2', g3'⟩ := newTT_list (v := [false, false, true, true]) (A := [0, 1]) (by decide) rfl
  have hg : g = setUnary 1 := by
    have e : g = g' := by
      have := (C64_formats [false, false, true, true] (some [0, 1]) false "0011".toList (by decide)).1
      have h2 : newTT (.binv ⟨[false, false, true, true]⟩) (some [0, 1]) = .ok g := g1
      rw [← this] at h2
      exact Except.ok.inj (h2.symm.trans g1')
    rw [e]
    apply g2'.ext (canon_unary 1)
    intro a
    rw [g3', eval_unary]
    simp only [List.map_cons, List.map_nil]
    show _ = (a 1 ^^ false)
    cases a 0 <;> cases a 1 <;> rfl
  have hobj : Obj f := .new { tt := some (.list [0, 0, 1, 1]), av := some [0, 1], skip := true } f f1' (by simp [Args.entries])
  refine ⟨f, f1', hobj, ?_, ?_, fun key => by rw [f4, hg]⟩
  · rw [C66_is_inflated f hobj]
    refine ⟨0, by rw [hA]; decide, fun key => ?_⟩
    rw [f4, f4, hg, getItem_eq (canon_unary 1).toSound, getItem_eq (canon_unary 1).toSound, eval_unary, eval_unary]
    refine congrArg Except.ok ?_
    show ((key.testBit 1) ^^ false) = (((key ^^^ 2 ^ 0).testBit 1) ^^ false)
    rw [testBit_xor_pow]; simp
  · rw [← Bool.not_eq_true, Boolf.eq_iff, hA]
    rintro ⟨_, h⟩
    exact absurd h (by decide)

example : ([3, 1] : List Nat).Nodup ∧ ([3, 1] : List Nat) ≠ [] ∧ ([false, true, false, true] : List Bool).length = 2 ^ ([3, 1] : List Nat).length := by decide

/-! ## C67 -/

/-- the value of an entry for a key -/
def Entry.At (key : Nat) : Entry → Bool → Prop
  | .int n, b => b = decide (¬ FalseIn key n)
  | .boolf g, b => g.getItem key = .ok b

theorem entry_at {key : Nat} {e : Entry} {b : Bool} (hs : ∀ g, e = .boolf g → Sound g) (h : e.At key b) : e.value key.testBit = b := by
  cases e with
  | int n =>
    unfold Entry.At at h
    unfold Entry.value
    rw [h, Bool.eq_iff_iff, decide_eq_true_eq, falseIn_iff, Bool.not_eq_false]
  | boolf g =>
    change g.getItem key = .ok b at h
    rw [getItem_eq (hs g rfl)] at h
    exact Except.ok.inj h

theorem entries_at {key : Nat} {l : List Entry} {vs : List Bool} (hs : ∀ g, Entry.boolf g ∈ l → Sound g) (h : List.Forall₂ (Entry.At key) l vs) :
    l.map (Entry.value key.testBit) = vs := by
  induction h with
  | nil => rfl
  | cons h _ ih =>
    rw [List.map_cons, entry_at (fun g hg => hs g (by rw [hg]; exact List.mem_cons_self)) h, ih (fun g hg => hs g (List.mem_cons_of_mem _ hg))]

theorem foldl_and (l : List Bool) (b : Bool) : l.foldl (· && ·) b = (b && decide (∀ x ∈ l, x = true)) := by
  induction l generalizing b with
  | nil => simp
  | cons x l ih => rw [List.foldl_cons, ih]; cases b <;> cases x <;> simp

theorem foldl_or (l : List Bool) (b : Bool) : l.foldl (· || ·) b = (b || decide (∃ x ∈ l, x = true)) := by
  induction l generalizing b with
  | nil => simp
  | cons x l ih => rw [List.foldl_cons, ih]; cases b <;> cases x <;> simp

theorem foldl_xor (l : List Bool) (b : Bool) : l.foldl (· ^^ ·) b = (b ^^ decide (Odd (l.count true))) := by
  induction l generalizing b with
  | nil => simp
  | cons x l ih =>
    rw [List.foldl_cons, ih]
    cases x
    · simp
    · rw [List.count_cons_self, Bool.xor_true, Bool.not_xor, ← Bool.xor_not]
      congr 1
      rw [Bool.eq_iff_iff, decide_eq_true_eq, Nat.odd_add_one, Bool.not_eq_true', decide_eq_false_iff_not]

theorem foldl_xand (l : List Bool) (b : Bool) : l.foldl (fun x y => x ^^ !y) b = (b ^^ decide (Odd (l.count false))) := by
  induction l generalizing b with
  | nil => simp
  | cons x l ih =>
    rw [List.foldl_cons, ih]
    cases x
    · rw [List.count_cons_self, Bool.not_false, Bool.xor_true, Bool.not_xor, ← Bool.xor_not]
      congr 1
      rw [Bool.eq_iff_iff, decide_eq_true_eq, Nat.odd_add_one, Bool.not_eq_true', decide_eq_false_iff_not]
    · simp

/-- **C67.** The constructor with a list of atoms (negated ones as `~atom`) and functions: conjunction, disjunction, exclusive disjunction, and the
function that is true iff an even number of operands is false. -/
theorem C67_multi (l : List Entry) (hl : ∀ g, Entry.boolf g ∈ l → Obj g) :
    ∃ a o x xa, new { muA := some l } = .ok a ∧ new { muO := some l } = .ok o ∧ new { muXo := some l } = .ok x ∧ new { muXa := some l } = .ok xa ∧
      Reach a ∧ Reach o ∧ Reach x ∧ Reach xa ∧
      ∀ (key : Nat) (vs : List Bool), List.Forall₂ (Entry.At key) l vs →
        a.getItem key = .ok (decide (∀ v ∈ vs, v = true)) ∧
        o.getItem key = .ok (decide (∃ v ∈ vs, v = true)) ∧
        x.getItem key = .ok (decide (Odd (vs.count true))) ∧
        xa.getItem key = .ok (decide (Even (vs.count false))) := by
  have hs : ∀ g, Entry.boolf g ∈ l → Sound g := fun g hg => (hl g hg).good.toSound
  obtain ⟨a, a1, a2, a3⟩ := multiLoop_spec (fun f g hf hg => and_spec hf hg) l hs _ (canon_const true)
  obtain ⟨o, o1, o2, o3⟩ := multiLoop_spec (fun f g hf hg => or_spec hf hg) l hs _ (canon_const false)
  obtain ⟨x, x1, x2, x3⟩ := multiLoop_spec (fun f g hf hg => xor_spec hf hg) l hs _ (canon_const false)
  obtain ⟨xa, y1, y2, y3⟩ := multiLoop_spec (ext := Boolf.xand) (op := fun x y => x ^^ !y) (fun f g hf hg => xand_spec hf hg) l hs _ (canon_const true)
  refine ⟨a, o, x, xa, ?_, ?_, ?_, ?_, a2.reach, o2.reach, x2.reach, y2.reach, fun key vs hvs => ?_⟩
  · simp only [new, newMulti]
    rw [if_pos (by rfl)]
    simp only [newTT_str1, bind, Except.bind]
    exact a1
  · simp only [new, newMulti]
    rw [if_pos (by rfl)]
    simp only [newTT_str0, bind, Except.bind]
    exact o1
  · simp only [new, newMulti]
    rw [if_pos (by rfl)]
    simp only [newTT_str0, bind, Except.bind]
    exact x1
  · simp only [new, newMulti]
    rw [if_pos (by rfl)]
    simp only [newTT_str1, bind, Except.bind]
    exact y1
  · have hm := entries_at hs hvs
    have hf : ∀ (op : Bool → Bool → Bool) (s : Bool), l.foldl (fun b e => op b (e.value key.testBit)) s = vs.foldl op s := by
      intro op s
      rw [← hm, List.foldl_map]
    rw [getItem_eq a2.toSound, getItem_eq o2.toSound, getItem_eq x2.toSound, getItem_eq y2.toSound, a3, o3, x3, y3,
      eval_const, eval_const, hf, hf (· || ·), hf (· ^^ ·), hf (fun x y => x ^^ !y), foldl_and, foldl_or, foldl_xor, foldl_xand]
    simp only [Bool.true_and, Bool.false_or, Bool.false_xor, Bool.true_xor, true_and]
    refine congrArg Except.ok ?_
    rw [Bool.eq_iff_iff, Bool.not_eq_true', decide_eq_false_iff_not, decide_eq_true_eq, Nat.not_odd_iff_even]

/-- **C67.** An atom alone, or negated. -/
theorem C67_atom (z : Int) : ∃ f, new { atom := some z } = .ok f ∧ Reach f ∧ f.atomvals = [(if z < 0 then -z - 1 else z).toNat] ∧
    ∀ key : Nat, f.getItem key = .ok (decide (¬ FalseIn key z)) := by
  refine ⟨setUnary z, rfl, .new { atom := some z } _ rfl rfl (by simp [Args.entries]), ?_, fun key => ?_⟩
  · unfold setUnary inv
    split <;> rfl
  · rw [getItem_eq (canon_unary z).toSound, eval_unary]
    refine congrArg Except.ok ?_
    rw [Bool.eq_iff_iff, decide_eq_true_eq, falseIn_iff, Bool.not_eq_false]

example : List.Forall₂ (Entry.At 5) [.int 0, .int (-2), .boolf (setConstant true)] [true, true, true] := by
  refine .cons ?_ (.cons ?_ (.cons rfl .nil)) <;> (unfold Entry.At; decide)

/-! ## C68 -/

/-- **C68.** Exactly one of the arguments `atomvals` and `arity` has to be given beside `fullspots`. -/
theorem C68_combo (fs : List Int) (av : Option (List Int)) (ar : Option Int) (h : av.isSome = ar.isSome) (skip : Bool) :
    new { fs := some fs, av := av, arity := ar, skip := skip } = .error .argCombo := by
  show newFullspots fs av ar skip = _
  unfold newFullspots
  rw [if_pos h]

theorem newFullspots_spec {fs : List Nat} {A : List Nat} (hA : A.Pairwise (· < ·)) (hfs : ∀ i ∈ fs, i < 2 ^ A.length) {av : Option (List Int)} {ar : Option Int}
    (h1 : av.isSome ≠ ar.isSome) (h2 : av.getD ((List.range (ar.getD 0).toNat).map Int.ofNat) = A.map Int.ofNat) :
    ∃ f, newFullspots (fs.map Int.ofNat) av ar = .ok f ∧ Canon f ∧ ∀ a, f.eval a = decide (valB (A.map a) ∈ fs) := by
  unfold newFullspots
  rw [if_neg h1, h2]
  simp only
  by_cases hfs0 : fs = []
  · subst hfs0
    exact ⟨_, rfl, canon_const false, fun a => by rw [eval_const]; simp⟩
  · rw [if_neg (by simpa using hfs0)]
    by_cases hA0 : A = []
    · subst hA0
      rw [if_pos (by simp)]
      have h0 : ∀ i ∈ fs, i = 0 := fun i hi => by have := hfs i hi; simpa using this
      rw [if_pos (by
        rw [List.all_eq_true]
        intro z hz
        obtain ⟨i, hi, rfl⟩ := List.mem_map.1 hz
        rw [h0 i hi]; rfl)]
      refine ⟨_, rfl, canon_const true, fun a => ?_⟩
      rw [eval_const]
      obtain ⟨i, hi⟩ := List.exists_mem_of_ne_nil fs hfs0
      have := h0 i hi
      subst this
      exact (decide_eq_true (by simpa [valB] using hi)).symm
    · rw [if_neg (by simpa using hA0)]
      simp only [List.length_map, shl_eq]
      obtain ⟨b, b1, b2, b3⟩ := (C26_exposet fs (2 ^ A.length)).1 hfs
      obtain ⟨c, A', d1, d2, d3, d4, d5⟩ := deflate_spec b (A.map Int.ofNat) (by simpa using b2)
      have hsub : ∃ B : List Nat, A' = B.map Int.ofNat ∧ B.Sublist A := by
        obtain ⟨B, hB, e⟩ := List.sublist_map_iff.1 d3
        exact ⟨B, e, hB⟩
      obtain ⟨B, rfl, hB⟩ := hsub
      have hBasc : B.Pairwise (· < ·) := hA.sublist hB
      obtain ⟨f, f1, f2, f3⟩ := ttDeflated_asc (b := c) hBasc (by simpa using d2)
      refine ⟨f, ?_, f2, fun a => ?_⟩
      · simp only [b1, d1, bind, Except.bind, Bool.false_eq_true, if_false]
        rw [← f1]; exact newTT_binv c.vector _
      · have h4 := d4 (fun z => a z.toNat)
        rw [List.map_map, List.map_map] at h4
        have e1 : B.map ((fun z : Int => a z.toNat) ∘ Int.ofNat) = B.map a := List.map_congr_left fun x _ => rfl
        have e2 : A.map ((fun z : Int => a z.toNat) ∘ Int.ofNat) = A.map a := List.map_congr_left fun x _ => rfl
        rw [e1, e2] at h4
        rw [f3, h4, Bool.eq_iff_iff, decide_eq_true_eq, ← b3, mem_exposet, List.getD_eq_getElem?_getD]
        cases b.vector[valB (A.map a)]? <;> simp

/-- **C68.** Fullspots with an arity: the function is true for a key below `2 ** arity` iff the key is in the list. -/
theorem C68_arity (fs : List Nat) (n : Nat) (hfs : ∀ i ∈ fs, i < 2 ^ n) :
    ∃ f, new { fs := some (fs.map Int.ofNat), arity := some (n : Int) } = .ok f ∧ Reach f ∧ f.adicity ≤ n ∧
      ∀ key < 2 ^ n, f.getItem key = .ok (decide (key ∈ fs)) := by
  obtain ⟨f, f1, f2, f3⟩ := newFullspots_spec (A := List.range n) (av := none) (ar := some (n : Int)) List.pairwise_lt_range (by simpa using hfs) (by simp) (by simp)
  refine ⟨f, f1, .new { fs := some (fs.map Int.ofNat), arity := some (n : Int) } f f1 rfl (by simp [Args.entries]),
    f2.adicity_le (e := fun l => decide (valB l ∈ fs)) f3, fun key hk => ?_⟩
  rw [getItem_eq f2.toSound, f3, valB_range_testBit, Nat.mod_eq_of_lt hk]

/-- **C68.** Fullspots with ascending atoms: the same as the table that is true at the given places. -/
theorem C68_atoms (fs A : List Nat) (hA : A.Pairwise (· < ·)) (hfs : ∀ i ∈ fs, i < 2 ^ A.length) (v : List Bool) (hl : v.length = 2 ^ A.length)
    (hv : ∀ i < 2 ^ A.length, v[i]? = some true ↔ i ∈ fs) :
    new { fs := some (fs.map Int.ofNat), av := some (A.map Int.ofNat) } = new { tt := some (.binv ⟨v⟩), av := some (A.map Int.ofNat) } ∧
    ∃ f, new { fs := some (fs.map Int.ofNat), av := some (A.map Int.ofNat) } = .ok f := by
  obtain ⟨f, f1, f2, f3⟩ := newFullspots_spec (av := some (A.map Int.ofNat)) (ar := none) hA hfs (by simp) rfl
  obtain ⟨g, g1, g2, g3⟩ := ttDeflated_asc (b := ⟨v⟩) hA hl
  have f1' : new { fs := some (fs.map Int.ofNat), av := some (A.map Int.ofNat) } = .ok f := f1
  have g1' : new { tt := some (.binv ⟨v⟩), av := some (A.map Int.ofNat) } = .ok g := (newTT_binv v _).trans g1
  refine ⟨?_, f, f1'⟩
  rw [f1', g1']
  refine congrArg Except.ok (f2.ext g2 fun a => ?_)
  have hlt := valB_map_lt A a
  rw [f3, g3, Bool.eq_iff_iff, decide_eq_true_eq, ← hv _ hlt, List.getD_eq_getElem?_getD, List.getElem?_eq_getElem (by omega)]
  simp

/-- **C68.** Places beyond the table are rejected. -/
theorem C68_too_large (fs : List Nat) (n : Nat) (h : ∃ i ∈ fs, 2 ^ n ≤ i) :
    new { fs := some (fs.map Int.ofNat), arity := some (n : Int) } = .error (if n = 0 then .argMismatch else .lengthError) := by
  obtain ⟨i, hi, hin⟩ := h
  show newFullspots (fs.map Int.ofNat) none (some (n : Int)) false = _
  unfold newFullspots
  rw [if_neg (by simp), if_neg (by simp; rintro rfl; cases hi)]
  simp only [Option.getD_none, Option.getD_some, Int.toNat_natCast]
  by_cases hn : n = 0
  · subst hn
    rw [if_pos rfl, if_pos (by simp), if_neg]
    rw [List.all_eq_true]
    intro hc
    have := hc (Int.ofNat i) (List.mem_map.2 ⟨i, hi, rfl⟩)
    simp at this
    subst this
    omega
  · rw [if_neg (by simpa using hn), if_neg hn]
    have := (C26_exposet fs (2 ^ n)).2.1 ⟨i, hi, hin⟩
    simp only [List.length_map, List.length_range, shl_eq, this, bind, Except.bind]

/-- **C68.** For atoms that are not ascending the places are not read like those of a table: the table `0101 0101` with the atoms `[2, 0, 1]` is the atom
1 (see `C64_order_of_digits`), but its places with the same atoms give the atom 2. -/
theorem C68_order_of_atoms :
    ∃ f g, new { fs := some [1, 3, 5, 7], av := some [2, 0, 1] } = .ok f ∧ new { tt := some (.list [0, 1, 0, 1, 0, 1, 0, 1]), av := some [2, 0, 1] } = .ok g ∧
      f = setUnary 2 ∧ g = setUnary 1 := by
  obtain ⟨g, g1, g2⟩ := C64_order_of_digits
  obtain ⟨f, f1, f2, f3⟩ := newTT_list (v := [false, true]) (A := [2]) (by decide) rfl
  refine ⟨f, g, ?_, g1, ?_, g2⟩
  · show newFullspots [1, 3, 5, 7] (some [2, 0, 1]) none false = _
    unfold newFullspots
    have e1 : BV.mk { exposet := some [1, 3, 5, 7], length := some ((1 <<< ([2, 0, 1] : List Int).length : Nat) : Int) } =
        .ok ⟨[false, true, false, true, false, true, false, true]⟩ := by decide
    have e2 : deflate (⟨[false, true, false, true, false, true, false, true]⟩ : Binv) ([2, 0, 1] : List Int) = .ok (⟨[false, true]⟩, [2]) := by decide
    simp only [Option.getD_some, e1, e2, bind, Except.bind]
    exact (C64_formats [false, true] (some [2]) false "01".toList (by decide)).1.symm.trans f1
  · apply f2.ext (canon_unary 2)
    intro a
    rw [f3, eval_unary]
    simp only [List.map_cons, List.map_nil]
    show _ = (a 2 ^^ false)
    cases a 2 <;> rfl

/-- **C68.** Negative places count from the end. -/
theorem C68_negative : new { fs := some [-1], arity := some 2 } = new { fs := some [3], arity := some 2 } := by
  show newFullspots [-1] none (some 2) false = newFullspots [3] none (some 2) false
  unfold newFullspots
  have e1 : BV.mk { exposet := some [-1], length := some ((1 <<< ((List.range ((some 2 : Option Int).getD 0).toNat).map Int.ofNat).length : Nat) : Int) } =
      BV.mk { exposet := some [3], length := some ((1 <<< ((List.range ((some 2 : Option Int).getD 0).toNat).map Int.ofNat).length : Nat) : Int) } := by decide
  simp only [Option.getD_none, e1]
  rfl

example : ([1, 4] : List Nat).Pairwise (· < ·) ∧ (∀ i ∈ ([0, 3] : List Nat), i < 2 ^ ([1, 4] : List Nat).length) ∧
    (∀ i < 2 ^ ([1, 4] : List Nat).length, ([true, false, false, true] : List Bool)[i]? = some true ↔ i ∈ [0, 3]) ∧ (∃ i ∈ [3, 9], 2 ^ 3 ≤ i) := by decide

end Verif.BF
