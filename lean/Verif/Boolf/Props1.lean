import Verif.Boolf.Inflated

/-!
# Properties C48, C49, C51, C52, C53 of Boolean functions

`f.getItem key` is `f[key]`, the value of `f` when atom `k` has the value of bit `k` of `key`.  The theorems are stated for objects `Reach f`, returned by the
constructor without `skip_deflation`, or for all objects `Obj f`.
-/

namespace Verif.BF
open Verif.Py Verif.BV Verif.P Verif.W
open Verif.A hiding Mat

theorem testBit_xor_pow (key x i : Nat) : (key ^^^ 2 ^ x).testBit i = (key.testBit i ^^ decide (x = i)) := by
  rw [Nat.testBit_xor, Nat.testBit_two_pow]

theorem dep_key {f : Boolf} (h : Sound f) (x : Nat) : Dep f.eval x ↔ ∃ key : Nat, f.getItem key ≠ f.getItem (key ^^^ 2 ^ x) := by
  constructor
  · rintro ⟨a, ha⟩
    set key := valB ((List.range f.adicity).map (upd a x false)) with hkey
    have hb : ∀ y ∈ f.atomvals, key.testBit y = upd a x false y := by
      intro y hy
      rw [hkey, testBit_valB_map, List.getElem?_range (h.adic_lt hy)]; rfl
    refine ⟨key, fun hc => ha ?_⟩
    rw [getItem_eq h, getItem_eq h] at hc
    have e1 : f.eval key.testBit = f.eval (upd a x false) := Boolf.eval_congr hb
    have e2 : f.eval (key ^^^ 2 ^ x).testBit = f.eval (upd a x true) := by
      apply Boolf.eval_congr
      intro y hy
      rw [testBit_xor_pow, hb y hy]
      unfold upd
      by_cases hxy : y = x
      · subst hxy; simp
      · rw [if_neg hxy, if_neg hxy, decide_eq_false (fun h => hxy h.symm), Bool.xor_false]
    rw [← e1, ← e2]
    exact Except.ok.inj hc
  · rintro ⟨key, hk⟩
    rw [getItem_eq h, getItem_eq h] at hk
    refine ⟨key.testBit, fun hc => hk (congrArg Except.ok ?_)⟩
    have hu : upd key.testBit x (key.testBit x) = key.testBit := by
      funext y; unfold upd; split
      · next e => rw [e]
      · rfl
    have hv : upd key.testBit x (!key.testBit x) = (key ^^^ 2 ^ x).testBit := by
      funext y; unfold upd; rw [testBit_xor_pow]; split
      · next e => rw [e, decide_eq_true rfl, Bool.xor_true]
      · next e => rw [decide_eq_false (fun h => e h.symm), Bool.xor_false]
    rw [← hu, ← hv]
    rw [hu]
    cases hb : key.testBit x with
    | false =>
      rw [hb] at hu
      rw [hu] at hc
      rw [hc]; rfl
    | true =>
      rw [hb] at hu
      rw [hu] at hc
      rw [← hc]; rfl

/-! ## C48 -/

/-- **C48.** Every key has a value; it depends only on the bits for the stored atoms. -/
theorem C48_values (f : Boolf) (hf : Obj f) :
    (∀ key : Nat, ∃ b, f.getItem key = .ok b) ∧
    ∀ key key' : Nat, (∀ x ∈ f.atomvals, key.testBit x = key'.testBit x) → f.getItem key = f.getItem key' := by
  have h := hf.good.toSound
  refine ⟨fun key => ⟨_, getItem_eq h key⟩, fun key key' hk => ?_⟩
  rw [getItem_eq h, getItem_eq h, Boolf.eval_congr hk]

/-- **C48.** The stored atoms are ascending; they are exactly those on which the value depends; `valency` is their number, `adicity` the smallest number
above all of them; the table has one entry for each assignment of them. -/
theorem C48_atoms (f : Boolf) (hf : Reach f) :
    f.atomvals.Pairwise (· < ·) ∧
    (∀ x, x ∈ f.atomvals ↔ ∃ key : Nat, f.getItem key ≠ f.getItem (key ^^^ 2 ^ x)) ∧
    f.valency = f.atomvals.length ∧ (∀ n, f.adicity ≤ n ↔ ∀ x ∈ f.atomvals, x < n) ∧ f.root.length = 2 ^ f.valency := by
  have h := hf.canon
  refine ⟨h.asc, fun x => ?_, h.val, h.adic, ?_⟩
  · rw [h.mem_iff, dep_key h.toSound]
  · unfold Binv.length; rw [h.len, h.val]

/-- **C48.** Two functions are equal iff they have the same value for each key; then all their attributes are the same. -/
theorem C48_equality (f g : Boolf) (hf : Reach f) (hg : Reach g) :
    (f.eq g = true ↔ ∀ key : Nat, f.getItem key = g.getItem key) ∧ (f.eq g = true ↔ f = g) := by
  have h1 : f.eq g = true → f = g := by
    intro h
    obtain ⟨hr, hA⟩ := (Boolf.eq_iff f g).1 h
    apply hf.canon.ext hg.canon
    intro a
    unfold Boolf.eval
    rw [hr, hA]
  have h2 : f = g → f.eq g = true := by rintro rfl; exact (Boolf.eq_iff f f).2 ⟨rfl, rfl⟩
  refine ⟨⟨fun h key => by rw [h1 h], fun h => h2 (hf.canon.ext_key hg.canon h)⟩, ⟨h1, h2⟩⟩

/-- **C48.** `is_constant` tells whether the value is the same for all keys. -/
theorem C48_constant (f : Boolf) (hf : Reach f) : f.isConstant = true ↔ ∀ key key' : Nat, f.getItem key = f.getItem key' := by
  have h := hf.canon
  rw [h.good.const]
  constructor
  · intro hA key key'
    rw [getItem_eq h.toSound, getItem_eq h.toSound, Boolf.eval_congr (b := key'.testBit) (by rw [hA]; simp)]
  · intro hk
    rw [List.eq_nil_iff_forall_not_mem]
    intro x hx
    rw [h.mem_iff, dep_key h.toSound] at hx
    obtain ⟨key, hkey⟩ := hx
    exact hkey (hk _ _)

/-- two ways to write the conjunction of the atoms 1 and 3, with an inessential atom 0 in the second case -/
theorem two_ways : ∃ f g : Boolf, newTT (.list [0, 0, 0, 1]) (some [1, 3]) = .ok f ∧
    newTT (.list [0, 0, 0, 0, 0, 0, 1, 1]) (some [0, 1, 3]) = .ok g ∧ Reach f ∧ Reach g ∧ f.atomvals = [1, 3] ∧ f.eq g = true := by
  obtain ⟨f, f1, f2, f3⟩ := newTT_list (v := [false, false, false, true]) (A := [1, 3]) (by decide) rfl
  obtain ⟨g, g1, g2, g3⟩ := newTT_list (v := [false, false, false, false, false, false, true, true]) (A := [0, 1, 3]) (by decide) rfl
  have e : f = g := by
    apply f2.ext g2
    intro a
    rw [f3, g3]
    simp only [List.map_cons, List.map_nil]
    cases a 0 <;> cases a 1 <;> cases a 3 <;> rfl
  refine ⟨f, g, f1, g1, reach_newTT f1, reach_newTT g1, ?_, by rw [e]; exact (Boolf.eq_iff g g).2 ⟨rfl, rfl⟩⟩
  apply eq_of_mem_iff_of_lt f2.asc (by decide)
  intro x
  rw [f2.mem_iff, List.mem_cons, List.mem_singleton]
  have key : ∀ a : Nat → Bool, f.eval a = (a 1 && a 3) := by
    intro a; rw [f3]; simp only [List.map_cons, List.map_nil]; cases a 1 <;> cases a 3 <;> rfl
  constructor
  · rintro ⟨a, ha⟩
    by_contra hc
    push Not at hc
    apply ha
    rw [key, key]
    unfold upd
    rw [if_neg (Ne.symm hc.1), if_neg (Ne.symm hc.2), if_neg (Ne.symm hc.1), if_neg (Ne.symm hc.2)]
  · rintro (rfl | rfl)
    all_goals
      refine ⟨fun _ => true, ?_⟩
      rw [key, key]
      decide

example : ∃ f g : Boolf, newTT (.list [0, 0, 0, 1]) (some [1, 3]) = .ok f ∧
    newTT (.list [0, 0, 0, 0, 0, 0, 1, 1]) (some [0, 1, 3]) = .ok g ∧ Reach f ∧ Reach g ∧ f.atomvals = [1, 3] ∧ f.eq g = true := two_ways

/-! ## C49 -/

theorem reach_bitwise {f g h : Boolf} {op : Bool → Bool → Bool} (hb : f.bitwise op g = .ok h) : Reach h := by
  unfold Boolf.bitwise at hb
  simp only [bind, Except.bind] at hb
  split at hb
  · cases hb
  · split at hb
    · cases hb
    · split at hb
      · cases hb
      · exact reach_newTT hb

/-- **C49.** The values of `f & g`, `f | g`, `f ^ g` and `~f`. -/
theorem C49_operators (f g : Boolf) (hf : Obj f) (hg : Obj g) :
    ∃ a o x c, f.and g = .ok a ∧ f.or g = .ok o ∧ f.xor g = .ok x ∧ f.complement = .ok c ∧
      Reach a ∧ Reach o ∧ Reach x ∧ Reach c ∧
      ∀ (key : Nat) (u v : Bool), f.getItem key = .ok u → g.getItem key = .ok v →
        a.getItem key = .ok (u && v) ∧ o.getItem key = .ok (u || v) ∧ x.getItem key = .ok (u != v) ∧ c.getItem key = .ok (!u) := by
  have sf := hf.good.toSound
  have sg := hg.good.toSound
  obtain ⟨a, a1, a2, a3⟩ := and_spec sf sg
  obtain ⟨o, o1, o2, o3⟩ := or_spec sf sg
  obtain ⟨x, x1, x2, x3⟩ := xor_spec sf sg
  obtain ⟨c, c1, c2, c3⟩ := complement_spec sf
  refine ⟨a, o, x, c, a1, o1, x1, c1, reach_bitwise a1, reach_bitwise o1, reach_bitwise x1, reach_newTT c1, fun key u v hu hv => ?_⟩
  rw [getItem_eq sf] at hu
  rw [getItem_eq sg] at hv
  rw [getItem_eq a2.toSound, getItem_eq o2.toSound, getItem_eq x2.toSound, getItem_eq c2.toSound, a3, o3, x3, c3,
    Except.ok.inj hu, Except.ok.inj hv]
  refine ⟨rfl, rfl, ?_, rfl⟩
  cases u <;> cases v <;> rfl

/-- **C49.** As a consequence the operators are commutative and associative, and fulfil De Morgan's law, up to equality of objects. -/
theorem C49_laws (f g h : Boolf) (hf : Reach f) (hg : Reach g) (hh : Reach h) :
    f.and g = g.and f ∧ f.or g = g.or f ∧ f.xor g = g.xor f ∧
    (do (← f.and g).and h) = (do f.and (← g.and h)) ∧
    (do (← f.or g).or h) = (do f.or (← g.or h)) ∧
    (do (← f.xor g).xor h) = (do f.xor (← g.xor h)) ∧
    (do f.and (← g.xor h)) = (do (← f.and g).xor (← f.and h)) ∧
    (do (← f.and g).complement) = (do (← f.complement).or (← g.complement)) ∧
    (do (← f.complement).complement) = .ok f ∧ f.xor f = newTT (.str ['0']) ∧ f.and f = .ok f ∧ f.or f = .ok f := by
  have sf := hf.canon.toSound
  have sg := hg.canon.toSound
  have sh := hh.canon.toSound
  have comm : ∀ (op : Bool → Bool → Bool), (∀ x y, op x y = op y x) → f.bitwise op g = g.bitwise op f := by
    intro op hop
    obtain ⟨a, a1, a2, a3⟩ := bitwise_spec sf sg op
    obtain ⟨b, b1, b2, b3⟩ := bitwise_spec sg sf op
    rw [a1, b1, a2.ext b2 (fun x => by rw [a3, b3, hop])]
  have assoc : ∀ (op : Bool → Bool → Bool), (∀ x y z, op (op x y) z = op x (op y z)) →
      (do (← f.bitwise op g).bitwise op h) = (do f.bitwise op (← g.bitwise op h)) := by
    intro op hop
    obtain ⟨a, a1, a2, a3⟩ := bitwise_spec sf sg op
    obtain ⟨b, b1, b2, b3⟩ := bitwise_spec sg sh op
    obtain ⟨c, c1, c2, c3⟩ := bitwise_spec a2.toSound sh op
    obtain ⟨d, d1, d2, d3⟩ := bitwise_spec sf b2.toSound op
    rw [a1, b1]
    show a.bitwise op h = f.bitwise op b
    rw [c1, d1, c2.ext d2 (fun x => by rw [c3, d3, a3, b3, hop])]
  refine ⟨comm _ (by decide), comm _ (by decide), comm _ (by decide), assoc _ (by decide), assoc _ (by decide), assoc _ (by decide), ?_⟩
  obtain ⟨a, a1, a2, a3⟩ := and_spec sf sg
  obtain ⟨b, b1, b2, b3⟩ := and_spec sf sh
  obtain ⟨x, x1, x2, x3⟩ := xor_spec sg sh
  obtain ⟨l, l1, l2, l3⟩ := and_spec sf x2.toSound
  obtain ⟨r, r1, r2, r3⟩ := xor_spec a2.toSound b2.toSound
  obtain ⟨cf, cf1, cf2, cf3⟩ := complement_spec sf
  obtain ⟨cg, cg1, cg2, cg3⟩ := complement_spec sg
  obtain ⟨ca, ca1, ca2, ca3⟩ := complement_spec a2.toSound
  obtain ⟨o, o1, o2, o3⟩ := or_spec cf2.toSound cg2.toSound
  obtain ⟨cc, cc1, cc2, cc3⟩ := complement_spec cf2.toSound
  obtain ⟨z, z1, z2, z3⟩ := xor_spec sf sf
  obtain ⟨i, i1, i2, i3⟩ := and_spec sf sf
  obtain ⟨j, j1, j2, j3⟩ := or_spec sf sf
  refine ⟨?_, ?_, ?_, ?_, ?_, ?_⟩
  · rw [x1, a1, b1]
    show f.and x = a.xor b
    rw [l1, r1, l2.ext r2 (fun y => by rw [l3, r3, x3, a3, b3]; cases f.eval y <;> simp)]
  · rw [a1, cf1, cg1]
    show a.complement = cf.or cg
    rw [ca1, o1, ca2.ext o2 (fun y => by rw [ca3, o3, a3, cf3, cg3]; cases f.eval y <;> simp)]
  · rw [cf1]
    show cf.complement = _
    rw [cc1, cc2.ext hf.canon (fun y => by rw [cc3, cf3]; cases f.eval y <;> simp)]
  · rw [z1, newTT_str0, z2.ext (canon_const false) (fun y => by rw [z3, eval_const]; cases f.eval y <;> simp)]
  · rw [i1, i2.ext hf.canon (fun y => by rw [i3]; cases f.eval y <;> simp)]
  · rw [j1, j2.ext hf.canon (fun y => by rw [j3]; cases f.eval y <;> simp)]

example : ∃ f g : Boolf, Reach f ∧ Reach g ∧ f.atomvals = [2] ∧ g.atomvals = [5] :=
  ⟨setUnary 2, setUnary (-6), .new { atom := some 2 } _ rfl rfl (by simp [Args.entries]),
    .new { atom := some (-6) } _ rfl rfl (by simp [Args.entries]), by decide, by decide⟩

/-! ## C51 -/

/-- **C51.** `tt(n)` for `n` from the adicity on has `2 ** n` entries, and entry `i` is the value for the key `i`.  Smaller numbers raise an exception. -/
theorem C51_tt (f : Boolf) (hf : Obj f) :
    (∀ n : Nat, f.adicity ≤ n → ∃ t, f.tt (.arity n) = .ok t ∧ t.length = 2 ^ n ∧ ∀ i < 2 ^ n, t.getItem i = f.getItem i) ∧
    (∀ n : Int, 0 ≤ n → n < f.adicity → f.tt (.arity n) = .error .argTooSmall) ∧
    (∀ n : Int, n < 0 → f.tt (.arity n) = .error .valueError) ∧
    f.tt .noArg = f.tt (.arity f.adicity) := by
  have h := hf.good.toSound
  refine ⟨fun n hn => ⟨_, tt_arity_eq h hn, by simp [Binv.length], fun i hi => ?_⟩, fun n h0 hn => ?_, fun n hn => ?_, tt_noArg_eq⟩
  · rw [getItem_eq h]
    unfold Binv.getItem
    rw [List.getElem?_map, List.getElem?_range hi]
    rfl
  · unfold Boolf.tt
    simp only
    rw [if_neg (by omega), if_neg (by omega)]
  · unfold Boolf.tt
    simp only
    rw [if_pos hn]

/-- **C51.** `tt(atoms)` for a set that includes all atoms of the function: bit `j` of the place belongs to the `j`-th element of the sorted set.
Other sets raise an exception. -/
theorem C51_tt_atoms (f : Boolf) (hf : Obj f) (U : List Nat) (hU : U.Pairwise (· < ·)) (l : List Int) (hl : ∀ z : Int, z ∈ l ↔ ∃ x ∈ U, z = (x : Int)) :
    ((∀ x ∈ f.atomvals, x ∈ U) → ∃ t, f.tt (.atoms l) = .ok t ∧ t.length = 2 ^ U.length ∧
      ∀ (i key : Nat), i < 2 ^ U.length → (∀ (j x : Nat), U[j]? = some x → i.testBit j = key.testBit x) → t.getItem i = f.getItem key) ∧
    (¬ (∀ x ∈ f.atomvals, x ∈ U) → f.tt (.atoms l) = .error .argMismatch) := by
  have h := hf.good.toSound
  constructor
  · intro hs
    obtain ⟨t, t1, t2, t3⟩ := tt_atoms_eq h (l := l) (fun x hx => (hl x).2 ⟨x, hs x hx, rfl⟩)
    have hsort : l.dedup.insertionSort (· ≤ ·) = U.map Int.ofNat := by
      have p1 := sortedI_pairwise (List.nodup_dedup l)
      have p2 : (U.map Int.ofNat).Pairwise (· < ·) := by
        rw [List.pairwise_map]; exact hU.imp (fun h => by simpa using h)
      have hperm : (l.dedup.insertionSort (· ≤ ·)).Perm (U.map Int.ofNat) := by
        rw [List.perm_ext_iff_of_nodup (p1.imp (fun h => ne_of_lt h)) (p2.imp (fun h => ne_of_lt h))]
        intro z
        rw [(List.perm_insertionSort _ _).mem_iff, List.mem_dedup, hl, List.mem_map]
        exact ⟨fun ⟨x, hx, e⟩ => ⟨x, hx, e.symm⟩, fun ⟨x, hx, e⟩ => ⟨x, hx, e.symm⟩⟩
      exact List.Perm.eq_of_pairwise (fun a b _ _ h1 h2 => absurd h1 (not_lt_of_gt h2)) p1 p2 hperm
    rw [hsort] at t2 t3
    refine ⟨t, t1, by simpa using t2, fun i key hi hik => ?_⟩
    have e := t3 (fun z => key.testBit z.toNat)
    have hidx : valB ((U.map Int.ofNat).map fun z => key.testBit z.toNat) = i := by
      rw [List.map_map]
      apply Nat.eq_of_testBit_eq
      intro j
      rw [testBit_valB_map]
      by_cases hj : j < U.length
      · rw [List.getElem?_eq_getElem hj, Option.map_some, Option.getD_some, hik j _ (List.getElem?_eq_getElem hj)]; rfl
      · rw [List.getElem?_eq_none (by omega), Nat.testBit_lt_two_pow (lt_of_lt_of_le hi (Nat.pow_le_pow_right (by omega) (by omega)))]; rfl
    rw [hidx] at e
    rw [getItem_eq h]
    have hlt : i < t.length := by rw [t2]; simpa using hi
    rw [getItem_ok hlt]
    refine congrArg Except.ok ?_
    rw [List.getD_eq_getElem?_getD, List.getElem?_eq_getElem hlt] at e
    exact e
  · intro hs
    push Not at hs
    obtain ⟨x, hx, hxU⟩ := hs
    unfold Boolf.tt
    simp only
    rw [if_neg]
    rw [List.all_eq_true]
    intro hc
    have := hc x hx
    rw [List.contains_iff_mem, hl] at this
    obtain ⟨y, hy, e⟩ := this
    exact hxU (by rwa [show x = y by omega])

/-- **C51.** The function rebuilt from `tt(n)` or from the integer of `tt(n)` is equal to the original. -/
theorem C51_rebuild (f : Boolf) (hf : Reach f) (n : Nat) (hn : f.adicity ≤ n) :
    ∃ t, f.tt (.arity n) = .ok t ∧ newTT (.binv t) = .ok f ∧ newTT (.int t.intval) none (some (n : Int)) = .ok f := by
  have h := hf.canon
  have hl : (⟨(List.range (2 ^ n)).map fun i => f.eval i.testBit⟩ : Binv).length = 2 ^ n := by simp [Binv.length]
  obtain ⟨g, g1, g2, g3⟩ := ttDeflated_none hl
  have e : g = f := by
    apply g2.ext h
    intro a
    have hlt : valB ((List.range n).map a) < 2 ^ n := by simpa using valB_map_lt (List.range n) a
    rw [g3, List.getD_eq_getElem?_getD, List.getElem?_map, List.getElem?_range hlt]
    apply Boolf.eval_congr
    intro x hx
    have hx' : x < n := (h.adic n).1 hn x hx
    rw [testBit_valB_map, List.getElem?_range hx']; rfl
  refine ⟨_, tt_arity_eq h.toSound hn, ?_, ?_⟩
  · unfold newTT
    simp only [ttBinv, mk_binv, bind, Except.bind, Bool.false_eq_true, if_false]
    rw [g1, e]
  · unfold newTT
    simp only [ttBinv]
    rw [if_neg (by omega), Int.toNat_natCast, shl_eq, mk_intval_bits (Nat.two_pow_pos n) (by
      rw [intval_eq]
      refine lt_of_lt_of_le (valB_lt _) (le_of_eq ?_)
      simp)]
    simp only [bind, Except.bind, Bool.false_eq_true, if_false]
    have hv : (List.range (2 ^ n)).map (⟨(List.range (2 ^ n)).map fun i => f.eval i.testBit⟩ : Binv).intval.testBit =
        (List.range (2 ^ n)).map fun i => f.eval i.testBit := by
      apply List.map_congr_left
      intro i hi
      rw [List.mem_range] at hi
      rw [intval_eq, testBit_valB_map, List.getElem?_range hi]; rfl
    rw [hv, g1, e]

example : ∃ f : Boolf, Reach f ∧ f.adicity = 4 := by
  obtain ⟨f, _, f1, _, f2, _, f3, _⟩ := two_ways
  refine ⟨f, f2, ?_⟩
  have h := f2.canon.adic
  rw [f3] at h
  have h1 := (h 4).2 (by decide)
  have h2 := (h f.adicity).1 le_rfl 3 (by decide)
  omega

/-! ## C52 -/

/-- **C52.** The reverse has the value for the key with all atoms of the function flipped. -/
theorem C52_reverse (f : Boolf) (hf : Obj f) : ∃ r, f.reverse = .ok r ∧ Reach r ∧
    ∀ key key' : Nat, (∀ x ∈ f.atomvals, key.testBit x = !key'.testBit x) → r.getItem key = f.getItem key' := by
  obtain ⟨r, r1, r2, r3⟩ := reverse_spec hf.good.toSound
  refine ⟨r, r1, reach_newTT r1, fun key key' hk => ?_⟩
  rw [getItem_eq r2.toSound, getItem_eq hf.good.toSound, r3]
  refine congrArg Except.ok (Boolf.eval_congr fun x hx => ?_)
  rw [hk x hx, Bool.not_not]

/-- **C52.** Complement and reverse are involutions, commute with each other, and keep the atoms. -/
theorem C52_involutions (f : Boolf) (hf : Reach f) : ∃ c r cr, f.complement = .ok c ∧ f.reverse = .ok r ∧
    c.complement = .ok f ∧ r.reverse = .ok f ∧ c.reverse = .ok cr ∧ r.complement = .ok cr ∧
    c.atomvals = f.atomvals ∧ r.atomvals = f.atomvals ∧ c ≠ f := by
  have h := hf.canon
  obtain ⟨c, c1, c2, c3⟩ := complement_spec h.toSound
  obtain ⟨r, r1, r2, r3⟩ := reverse_spec h.toSound
  obtain ⟨cc, cc1, cc2, cc3⟩ := complement_spec c2.toSound
  obtain ⟨rr, rr1, rr2, rr3⟩ := reverse_spec r2.toSound
  obtain ⟨cr, cr1, cr2, cr3⟩ := reverse_spec c2.toSound
  obtain ⟨rc, rc1, rc2, rc3⟩ := complement_spec r2.toSound
  have e1 : cc = f := cc2.ext h (fun a => by rw [cc3, c3, Bool.not_not])
  have e2 : rr = f := rr2.ext h (fun a => by rw [rr3, r3]; simp)
  have e3 : rc = cr := rc2.ext cr2 (fun a => by rw [rc3, cr3, r3, c3])
  refine ⟨c, r, cr, c1, r1, by rw [cc1, e1], by rw [rr1, e2], cr1, by rw [rc1, e3], ?_, ?_, ?_⟩
  · apply eq_of_mem_iff_of_lt c2.asc h.asc
    intro x
    rw [c2.mem_iff, h.mem_iff]
    unfold Dep
    simp only [c3, ne_eq, Bool.not_inj_iff]
  · apply eq_of_mem_iff_of_lt r2.asc h.asc
    intro x
    rw [r2.mem_iff, h.mem_iff]
    have hu : ∀ (a : Nat → Bool) (b : Bool), (fun y => !upd a x b y) = upd (fun y => !a y) x (!b) := by
      intro a b; funext y; unfold upd; split <;> rfl
    unfold Dep
    simp only [r3, hu]
    constructor
    · rintro ⟨a, ha⟩; exact ⟨_, fun hc => ha hc.symm⟩
    · rintro ⟨a, ha⟩
      refine ⟨fun y => !a y, fun hc => ha ?_⟩
      simp only [Bool.not_not] at hc
      exact hc.symm
  · intro hc
    have := c3 (fun _ => false)
    rw [hc] at this
    cases hx : f.eval (fun _ => false) <;> rw [hx] at this <;> exact absurd this (by decide)

/-- **C52.** The quadrant is made of the values for the keys with all atoms false and with all atoms true. -/
theorem C52_quadrant (f : Boolf) (hf : Obj f) (u v : Bool) (key : Nat) (hk : ∀ x ∈ f.atomvals, key.testBit x = true)
    (hu : f.getItem 0 = .ok u) (hv : f.getItem key = .ok v) : f.quadrant = .ok (u.toNat + 2 * v.toNat) := by
  have h := hf.good.toSound
  rw [getItem_eq h] at hu hv
  have hpos : 0 < f.root.vector.length := by rw [h.len]; exact Nat.two_pow_pos _
  have e1 : f.root.vector.head? = some u := by
    rw [← Except.ok.inj hu, List.head?_eq_getElem?, Boolf.eval_congr (b := fun _ => false) (by simp)]
    unfold Boolf.eval
    rw [List.getD_eq_getElem?_getD]
    have : valB (f.atomvals.map fun _ => false) = 0 := by
      apply Nat.eq_of_testBit_eq
      intro i
      rw [testBit_valB_map]
      cases f.atomvals[i]? <;> simp
    rw [this, List.getElem?_eq_getElem hpos]; rfl
  have e2 : f.root.vector.getLast? = some v := by
    rw [← Except.ok.inj hv, List.getLast?_eq_getElem?, Boolf.eval_congr (b := fun _ => true) hk]
    unfold Boolf.eval
    have : valB (f.atomvals.map fun _ => true) = f.root.vector.length - 1 := by
      rw [h.len]
      apply Nat.eq_of_testBit_eq
      intro i
      rw [testBit_valB_map, Nat.testBit_two_pow_sub_one]
      by_cases hi : i < f.atomvals.length
      · rw [List.getElem?_eq_getElem hi]; simp [hi]
      · rw [List.getElem?_eq_none (by omega)]; simp [hi]
    rw [this, List.getD_eq_getElem?_getD, List.getElem?_eq_getElem (by omega)]; rfl
  unfold Boolf.quadrant
  rw [e1, e2]
  simp only
  rw [Nat.mul_comm]

example : ∃ (f : Boolf) (u v : Bool), Reach f ∧ (∀ x ∈ f.atomvals, (10 : Nat).testBit x = true) ∧ f.getItem 0 = .ok u ∧ f.getItem 10 = .ok v := by
  obtain ⟨f, _, f1, _, f2, _, f3, _⟩ := two_ways
  refine ⟨f, _, _, f2, by rw [f3]; decide, getItem_eq f2.canon.toSound _, getItem_eq f2.canon.toSound _⟩

/-! ## C53 -/

theorem lt_spec {f g : Boolf} (hf : Sound f) (hg : Sound g) :
    ∃ b, f.bitwiseLt g = .ok b ∧ (b = true ↔ (∀ a, f.eval a = true → g.eval a = true) ∧ ∃ a, f.eval a ≠ g.eval a) := by
  have hlt := unionAtoms_lt f g
  have hnd := unionAtoms_nodup f g
  obtain ⟨v, v1, v2, v3⟩ := tt_union hf hlt (fun x hx => mem_unionAtoms.2 (.inl hx))
  obtain ⟨w, w1, w2, w3⟩ := tt_union hg hlt (fun x hx => mem_unionAtoms.2 (.inr hx))
  have hvw : (∀ a, f.eval a = g.eval a) ↔ v.vector = w.vector := by
    constructor
    · intro h
      apply List.ext_getElem?
      intro i
      by_cases hi : i < 2 ^ (unionAtoms f g).length
      · obtain ⟨a, ha⟩ := exists_assign hnd hi
        have h1 := v3 a
        have h2 := w3 a
        rw [ha, List.getD_eq_getElem?_getD, List.getElem?_eq_getElem (by rw [← v2] at hi; exact hi)] at h1
        rw [ha, List.getD_eq_getElem?_getD, List.getElem?_eq_getElem (by rw [← w2] at hi; exact hi)] at h2
        rw [List.getElem?_eq_getElem (by rw [← v2] at hi; exact hi), List.getElem?_eq_getElem (by rw [← w2] at hi; exact hi)]
        simp only [Option.getD_some] at h1 h2
        rw [h1, h2, h]
      · unfold Binv.length at v2 w2
        rw [List.getElem?_eq_none (by omega), List.getElem?_eq_none (by omega)]
    · intro h a; rw [← v3, ← w3, h]
  have himp : (∀ a, f.eval a = true → g.eval a = true) ↔ ∀ i ∈ List.range v.length, i ∈ v.exposet → i ∈ w.exposet := by
    simp only [mem_exposet, List.mem_range]
    have getD_iff : ∀ (l : List Bool) (i : Nat), l.getD i false = true ↔ l[i]? = some true := by
      intro l i; rw [List.getD_eq_getElem?_getD]; cases l[i]? <;> simp
    constructor
    · intro h i hi hv
      rw [v2] at hi
      obtain ⟨a, ha⟩ := exists_assign hnd hi
      have := h a
      rw [← v3, ← w3, ha, getD_iff, getD_iff] at this
      exact this hv
    · intro h a hv
      rw [← v3, getD_iff] at hv
      rw [← w3, getD_iff]
      refine h _ ?_ hv
      rw [v2]; exact valB_map_lt _ _
  unfold Boolf.bitwiseLt
  simp only [v1, w1, bind, Except.bind, pure, Except.pure]
  by_cases he : v.vector = w.vector
  · have : v.eq w = true := (C28_order v w v).1.2 he
    rw [if_pos this]
    refine ⟨_, rfl, ?_⟩
    simp only [Bool.false_eq_true, false_iff, not_and, not_exists, ne_eq, not_not]
    intro _; exact hvw.2 he
  · have : ¬ v.eq w = true := fun h => he ((C28_order v w v).1.1 h)
    rw [if_neg this, smallerLoop_eq v w (by rw [v2, w2]) _ (fun i hi => List.mem_range.1 hi)]
    refine ⟨_, rfl, ?_⟩
    rw [decide_eq_true_eq, ← himp]
    constructor
    · intro h
      refine ⟨h, ?_⟩
      by_contra hc
      push Not at hc
      exact he (hvw.1 hc)
    · exact fun h => h.1

/-- `g` is true for each key for which `f` is true -/
def Implies (f g : Boolf) : Prop := ∀ key : Nat, f.getItem key = .ok true → g.getItem key = .ok true

theorem implies_iff {f g : Boolf} (hf : Sound f) (hg : Sound g) : Implies f g ↔ ∀ a, f.eval a = true → g.eval a = true := by
  constructor
  · intro h a ha
    set key := valB ((List.range (max f.adicity g.adicity)).map a) with hkey
    have e : ∀ y, y < max f.adicity g.adicity → key.testBit y = a y := by
      intro y hy
      rw [hkey, testBit_valB_map, List.getElem?_range hy]; rfl
    have e1 : f.eval key.testBit = f.eval a := Boolf.eval_congr fun y hy => e y (lt_of_lt_of_le (hf.adic_lt hy) (le_max_left _ _))
    have e2 : g.eval key.testBit = g.eval a := Boolf.eval_congr fun y hy => e y (lt_of_lt_of_le (hg.adic_lt hy) (le_max_right _ _))
    have := h key
    rw [getItem_eq hf, getItem_eq hg, e1, e2, ha] at this
    exact Except.ok.inj (this rfl)
  · intro h key hk
    rw [getItem_eq hf] at hk
    rw [getItem_eq hg, h _ (Except.ok.inj hk)]

/-- **C53.** `bitwise_le` is implication, `bitwise_lt` is implication between different functions, `bitwise_ge` and `bitwise_gt` are both the converse of
`bitwise_le` (so `bitwise_gt` is not strict). -/
theorem C53_order (f g : Boolf) (hf : Reach f) (hg : Reach g) :
    ∃ lt le ge gt, f.bitwiseLt g = .ok lt ∧ f.bitwiseLe g = .ok le ∧ f.bitwiseGe g = .ok ge ∧ f.bitwiseGt g = .ok gt ∧
      (le = true ↔ Implies f g) ∧ (lt = true ↔ Implies f g ∧ f.eq g = false) ∧ (ge = true ↔ Implies g f) ∧ (gt = true ↔ Implies g f) := by
  have le_spec : ∀ f g : Boolf, Reach f → Reach g → ∃ lt le, f.bitwiseLt g = .ok lt ∧ f.bitwiseLe g = .ok le ∧
      (le = true ↔ Implies f g) ∧ (lt = true ↔ Implies f g ∧ f.eq g = false) := by
    intro f g hf hg
    obtain ⟨b, b1, b2⟩ := lt_spec hf.canon.toSound hg.canon.toSound
    rw [← implies_iff hf.canon.toSound hg.canon.toSound] at b2
    by_cases he : f.eq g = true
    · have e := (C48_equality f g hf hg).2.1 he
      subst e
      refine ⟨b, true, b1, by unfold Boolf.bitwiseLe; rw [if_pos he], ⟨fun _ key hk => hk, fun _ => rfl⟩, ?_⟩
      rw [b2, he]
      simp
    · have hne : ∃ a, f.eval a ≠ g.eval a := by
        by_contra hc
        push Not at hc
        exact he ((C48_equality f g hf hg).2.2 (hf.canon.ext hg.canon hc))
      have b3 : b = true ↔ Implies f g := by rw [b2]; exact ⟨fun h => h.1, fun h => ⟨h, hne⟩⟩
      refine ⟨b, b, b1, by unfold Boolf.bitwiseLe; rw [if_neg he, b1], b3, ?_⟩
      rw [b3]
      simp only [Bool.not_eq_true] at he
      rw [he]; simp
  obtain ⟨lt, le, h1, h2, h3, h4⟩ := le_spec f g hf hg
  obtain ⟨_, ge, _, h6, h7, _⟩ := le_spec g f hg hf
  exact ⟨lt, le, ge, ge, h1, h2, h6, h6, h3, h4, h7, h7⟩

/-- **C53.** Consequently `bitwise_le` is a partial order with `0` as bottom and `1` as top. -/
theorem C53_partial_order (f g h : Boolf) (hf : Reach f) (hg : Reach g) (hh : Reach h) :
    f.bitwiseLe f = .ok true ∧
    (f.bitwiseLe g = .ok true → g.bitwiseLe f = .ok true → f = g) ∧
    (f.bitwiseLe g = .ok true → g.bitwiseLe h = .ok true → f.bitwiseLe h = .ok true) ∧
    (setConstant false).bitwiseLe f = .ok true ∧ f.bitwiseLe (setConstant true) = .ok true ∧
    f.bitwiseGt f = .ok true := by
  have key : ∀ f g : Boolf, Reach f → Reach g → (f.bitwiseLe g = .ok true ↔ Implies f g) := by
    intro f g hf hg
    obtain ⟨_, le, _, _, _, h, _, _, h2, _⟩ := C53_order f g hf hg
    rw [h, ← h2]
    exact ⟨fun e => Except.ok.inj e, fun e => by rw [e]⟩
  have r0 : Reach (setConstant false) := reach_newTT newTT_str0
  have r1 : Reach (setConstant true) := reach_newTT newTT_str1
  rw [key f f hf hf, key f g hf hg, key g f hg hf, key g h hg hh, key f h hf hh, key _ f r0 hf, key f _ hf r1]
  refine ⟨fun _ h => h, fun h1 h2 => ?_, fun h1 h2 k hk => h2 k (h1 k hk), fun k hk => ?_, fun k hk => ?_, ?_⟩
  · rw [implies_iff hf.canon.toSound hg.canon.toSound] at h1
    rw [implies_iff hg.canon.toSound hf.canon.toSound] at h2
    apply hf.canon.ext hg.canon
    intro a
    rw [Bool.eq_iff_iff]
    exact ⟨h1 a, h2 a⟩
  · rw [getItem_eq r0.canon.toSound, eval_const] at hk
    cases hk
  · rw [getItem_eq r1.canon.toSound, eval_const]
  · show f.bitwiseLe f = .ok true
    rw [key f f hf hf]; exact fun _ h => h

example : ∃ f g : Boolf, Reach f ∧ Reach g ∧ f.bitwiseLt g = .ok true :=
  ⟨setConstant false, setConstant true, reach_newTT newTT_str0, reach_newTT newTT_str1, by
    obtain ⟨lt, _, _, _, h, _, _, _, _, h2, _⟩ := C53_order _ _ (reach_newTT newTT_str0) (reach_newTT newTT_str1)
    rw [h, h2.2 ⟨?_, by decide⟩]
    intro k hk
    rw [getItem_eq (canon_const false).toSound, eval_const] at hk
    cases hk⟩

end Verif.BF
