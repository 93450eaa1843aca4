import Verif.Perm.Props

/-! # Properties C11, C12, C13 and C18 of permutations -/

namespace Verif.P
open Verif.Py

/-! ## C11: `sequence` -/

theorem WF.maps_below {p : Perm} (hw : WF p) (n : Nat)
    (h : (p.perilen = none ∧ p.length ≤ n) ∨ ∃ l, p.perilen = some l ∧ l ∣ n) : ∀ i < n, p.get i < n := by
  intro i hi
  rcases h with ⟨h1, h2⟩ | ⟨l, h1, h2⟩
  · by_contra hc
    have h3 := hw.finite_bounded h1 (k := p.get i) (by omega)
    have := hw.get_bijective.1 h3
    omega
  · exact hw.get_lt h1 h2 hi

/-- `p.sequence(n)` exists exactly for the permitted lengths, and lists the values. -/
theorem C11_sequence (p : Perm) (n : Nat) :
    (p.perilen = none → (p.length ≤ n → p.sequence (some n) = .ok ((List.range n).map p.get)) ∧
      (n < p.length → p.sequence (some n) = .error .lengthTooSmall)) ∧
    (∀ l, p.perilen = some l → (l ∣ n → p.sequence (some n) = .ok ((List.range n).map p.get)) ∧
      (¬ l ∣ n → p.sequence (some n) = .error .lengthMismatchPerilen)) := by
  refine ⟨?_, ?_⟩
  · intro h
    refine ⟨fun h2 => ?_, fun h2 => ?_⟩
    · simp [Perm.sequence, h, h2]
    · simp only [Perm.sequence, h]; rw [if_neg (by omega)]
  · intro l h
    refine ⟨fun h2 => ?_, fun h2 => ?_⟩
    · simp only [Perm.sequence, h]; rw [if_pos (Nat.mod_eq_zero_of_dvd h2)]
    · simp only [Perm.sequence, h]; rw [if_neg (fun h3 => h2 (Nat.dvd_of_mod_eq_zero h3))]

/-- Without argument the length is the shortest permitted positive one (finite: the shortest). -/
theorem C11_sequence_default (p : Perm) :
    p.sequence none = match p.perilen with
      | none => p.sequence (some p.length)
      | some l => p.sequence (some l) := by
  cases h : p.perilen <;> simp [Perm.sequence, h]

/-- A finite permutation can be rebuilt from its sequence. -/
theorem C11_roundtrip_finite (p : Perm) (hp : Constructed p) (hf : p.perilen = none) (n : Nat) (hn : p.length ≤ n) :
    OkEq (do let s ← p.sequence (some n); mkPerm (.seq s)) (.ok p) := by
  rw [((C11_sequence p n).1 hf).1 hn]
  have hlen : ((List.range n).map p.get).length = n := by simp
  have hperm : ((List.range n).map p.get).Perm (List.range ((List.range n).map p.get).length) := by
    rw [hlen]; exact surj_below hp.wf.get_bijective.1 (hp.wf.maps_below n (Or.inl ⟨hf, hn⟩))
  obtain ⟨q, q1, q2, q3, _⟩ := (C01_perm_of_list _).1 hperm
  refine okEq_of (p := q) (q := p) q1 rfl ⟨.seq _, _, trivial, q1⟩ hp ?_
  funext i
  by_cases hi : i < n
  · rw [q2 i (by rw [hlen]; exact hi)]; simp
  · rw [q3 i (by rw [hlen]; omega), hp.wf.finite_bounded hf (by omega)]

/-- A periodic permutation can be rebuilt from any number of periods. -/
theorem C11_roundtrip_periodic (p : Perm) (hp : Constructed p) (l : Nat) (hl : p.perilen = some l) (n : Nat)
    (hn : l ∣ n) (h0 : 0 < n) : OkEq (do let s ← p.sequence (some n); mkPerm (.seq s) (some n)) (.ok p) := by
  rw [((C11_sequence p n).2 l hl).1 hn]
  have hlen : ((List.range n).map p.get).length = n := by simp
  have hperm : ((List.range n).map p.get).Perm (List.range ((List.range n).map p.get).length) := by
    rw [hlen]; exact surj_below hp.wf.get_bijective.1 (hp.wf.maps_below n (Or.inr ⟨l, hl, hn⟩))
  obtain ⟨m, m1, m2, m3⟩ := argMapping_seq hperm
  obtain ⟨q, q1, q2, q3⟩ := finish_same_per m2 hp.wf hl hn h0 (by
    intro k hk
    by_contra hc
    apply m2.mem_keys_iff_ne.1 hk
    rw [m3, List.getElem?_eq_none (by rw [hlen]; omega)]; rfl) (by
    intro i hi
    rw [m3]; simp [hi])
  have hmk : mkPerm (.seq ((List.range n).map p.get)) (some n) = .ok q := by
    unfold mkPerm; rw [m1]; exact q1
  exact okEq_of (p := q) (q := p) hmk rfl ⟨.seq _, _, trivial, hmk⟩ hp q3

example : Perm.sequence ⟨false, [(0, 1), (1, 0)], some 3, 3⟩ (some 6) = .ok [1, 0, 2, 4, 3, 5] := by decide
example : Perm.sequence ⟨false, [(0, 1), (1, 0)], none, 2⟩ (some 4) = .ok [1, 0, 2, 3] := by decide

/-! ## C12: `apply_on_vector` -/

/-- `p.apply_on_vector(v)` moves entry `i` to place `p[i]`.  It succeeds exactly if `p` maps the
places of `v` to themselves. -/
theorem C12_apply_on_vector {α : Type} (p : Perm) (hp : Constructed p) (v : List α) :
    ((∀ i < v.length, p.get i < v.length) →
      ∃ w, p.applyOnVector v = .ok w ∧ w.length = v.length ∧ (∀ i < v.length, w[p.get i]? = v[i]?) ∧ w.Perm v) ∧
    ((¬ ∀ i < v.length, p.get i < v.length) → p.applyOnVector v = .error .indexError) :=
  ⟨applyOnVector_spec hp v, applyOnVector_error hp v⟩

/-- Lengths permitted for `sequence` are permitted for `apply_on_vector`. -/
theorem C12_permitted (p : Perm) (hp : Constructed p) (n : Nat)
    (h : (p.perilen = none ∧ p.length ≤ n) ∨ ∃ l, p.perilen = some l ∧ l ∣ n) : ∀ i < n, p.get i < n :=
  hp.wf.maps_below n h

/-- Left action: applying `b` and then `a` is the same as applying `a * b`. -/
theorem C12_action {α : Type} (a b : Perm) (ha : Constructed a) (hb : Constructed b) (hab : SameKind a b)
    (v : List α) (hav : ∀ i < v.length, a.get i < v.length) (hbv : ∀ i < v.length, b.get i < v.length) :
    ∃ w, (do let c ← a.mul b; c.applyOnVector v) = .ok w ∧
      (do let u ← b.applyOnVector v; a.applyOnVector u) = .ok w := by
  obtain ⟨c, c1, c2, c3, _⟩ := mul_spec ha hb hab
  obtain ⟨w, w1, w2, w3, _⟩ := applyOnVector_spec c2 v (by
    intro i hi; rw [c3]; exact hav _ (hbv i hi))
  obtain ⟨u, u1, u2, u3, _⟩ := applyOnVector_spec hb v hbv
  obtain ⟨t, t1, t2, t3, _⟩ := applyOnVector_spec ha u (by rw [u2]; exact hav)
  refine ⟨w, by rw [c1]; exact w1, ?_⟩
  rw [u1]
  show a.applyOnVector u = .ok w
  rw [t1]
  congr 1
  apply List.ext_getElem?
  intro i
  by_cases hi : i < v.length
  · have hm : i ∈ (List.range v.length).map c.get :=
      (surj_below c2.wf.get_bijective.1 (fun i hi => by rw [c3]; exact hav _ (hbv i hi))).mem_iff.2
        (List.mem_range.2 hi)
    obtain ⟨j, hj, rfl⟩ := List.mem_map.1 hm
    rw [List.mem_range] at hj
    rw [w3 j hj, c3]
    simp only [Function.comp]
    rw [t3 _ (by rw [u2]; exact hbv j hj), u3 j hj]
  · rw [List.getElem?_eq_none (by rw [t2, u2]; omega), List.getElem?_eq_none (by rw [w2]; omega)]

example : Perm.applyOnVector ⟨false, [(0, 1), (1, 2), (2, 0)], none, 3⟩ ['a', 'b', 'c', 'd'] =
    .ok ['c', 'a', 'b', 'd'] := by decide
example : Perm.applyOnVector ⟨false, [(0, 1), (1, 2), (2, 0)], none, 3⟩ ['a', 'b'] = .error .indexError := by decide

/-! ## C13: `str` -/

theorem C13_str (p q : Perm) (hp : Constructed p) (hq : Constructed q) :
    ∃ s t, p.str = .ok s ∧ q.str = .ok t ∧ (s = t ↔ p.eq q = true) := by
  obtain ⟨cs, c1, c2⟩ := hp.wf.cycles_spec
  obtain ⟨ds, d1, d2⟩ := hq.wf.cycles_spec
  -- reduce `==` to equal cycles and period
  have heq : p.eq q = true ↔ cs = ds ∧ p.perilen = q.perilen := by
    rw [C05_eq_extensional p q hp hq]
    constructor
    · intro h
      have h' : p.get = q.get := funext h
      have hper := WF.perilen_eq_of_get hp.wf hq.wf h'
      have hget : ∀ k, p.mapping.get? k = q.mapping.get? k := by
        intro k; rw [hp.wf.get?_eq, hq.wf.get?_eq, h', hper]
      refine ⟨?_, hper⟩
      have hf : dictFun p.mapping = dictFun q.mapping := by funext i; simp [dictFun, hget]
      rw [hf] at c2
      exact c2.unique d2 (by intro x; simp [Dict.mem_keys_iff, hget])
    · rintro ⟨rfl, h2⟩ i
      have hf := c2.fun_eq d2 (fun x hx => dictFun_of_not_mem hx) (fun x hx => dictFun_of_not_mem hx)
      cases hpp : p.perilen with
      | none => rw [get_finite hp.wf hpp, get_finite hq.wf (h2 ▸ hpp), hf]
      | some l => rw [get_periodic hp.wf hpp, get_periodic hq.wf (h2 ▸ hpp), hf]
  have hne : ∀ {r : Perm} {es : List (List Nat)}, WF r → CycleSpec (dictFun r.mapping) r.mapping.keys es →
      (es = [] ↔ r.neutral = true) := by
    intro r es hr hs
    rw [hr.neutral_iff]
    constructor
    · rintro rfl
      by_contra hc
      obtain ⟨k, hk⟩ := List.exists_mem_of_ne_nil _ (keys_ne_nil hc)
      rw [← hs.mem] at hk; simp at hk
    · intro h
      cases es with
      | nil => rfl
      | cons e es => obtain ⟨a, _, ha, _⟩ := hs.head_le; rw [h] at ha; simp at ha
  have dec := listStr_decodable natStr_decodable
  -- the text of a non-neutral permutation
  have hs : ∀ {r : Perm} {es : List (List Nat)}, r.cycles = .ok es → r.neutral = false →
      r.str = .ok ("Perm(".toList ++ (listStr (listStr natStr) es ++ (match r.perilen with
        | some l => ", perilen=".toList ++ (natStr l ++ ")".toList)
        | none => ")".toList))) := by
    intro r es h1 h2
    unfold Perm.str
    rw [if_neg (by simp [h2]), h1]
    cases r.perilen <;> rfl
  have hneu : ∀ {r : Perm}, r.neutral = true → r.str = .ok "Perm()".toList := by
    intro r h; unfold Perm.str; rw [if_pos h]
  cases hpn : p.neutral with
  | true =>
    have hcs := (hne hp.wf c2).2 hpn
    cases hqn : q.neutral with
    | true =>
      refine ⟨_, _, hneu hpn, hneu hqn, ?_⟩
      rw [heq, hcs, (hne hq.wf d2).2 hqn, (hp.wf.neutral_perilen hpn).1, (hq.wf.neutral_perilen hqn).1]
      simp
    | false =>
      refine ⟨_, _, hneu hpn, hs d1 hqn, ?_⟩
      constructor
      · intro h
        exfalso
        have h1 : ("Perm(".toList ++ ")".toList : List Char) = _ := h
        rw [List.append_cancel_left_eq] at h1
        cases ds with
        | nil => simp [listStr] at h1
        | cons d ds => simp [listStr] at h1
      · rw [heq]
        rintro ⟨h1, _⟩
        rw [hcs] at h1
        have := (hne hq.wf d2).1 h1.symm
        rw [hqn] at this; cases this
  | false =>
    cases hqn : q.neutral with
    | true =>
      refine ⟨_, _, hs c1 hpn, hneu hqn, ?_⟩
      have hds := (hne hq.wf d2).2 hqn
      constructor
      · intro h
        exfalso
        have h1 : _ = ("Perm(".toList ++ ")".toList : List Char) := h
        rw [List.append_cancel_left_eq] at h1
        cases cs with
        | nil => simp [listStr] at h1
        | cons d ds => simp [listStr] at h1
      · rw [heq]
        rintro ⟨h1, _⟩
        rw [hds] at h1
        have := (hne hp.wf c2).1 h1
        rw [hpn] at this; cases this
    | false =>
      refine ⟨_, _, hs c1 hpn, hs d1 hqn, ?_⟩
      rw [heq, List.append_cancel_left_eq]
      constructor
      · intro h
        obtain ⟨h1, h2⟩ := listStr_inj (listStr_decodable natStr_decodable) _ _ _ _ h
        refine ⟨h1, ?_⟩
        cases hpp : p.perilen with
        | none =>
          cases hqq : q.perilen with
          | none => rfl
          | some l => rw [hpp, hqq] at h2; simp at h2
        | some k =>
          cases hqq : q.perilen with
          | none => rw [hpp, hqq] at h2; simp at h2
          | some l =>
            rw [hpp, hqq] at h2
            simp only [List.append_cancel_left_eq] at h2
            have hd : Delim ")".toList := ⟨[], Or.inr (Or.inr rfl)⟩
            rw [(natStr_decodable.inj _ _ _ _ hd hd h2).1]
      · rintro ⟨h1, h2⟩; rw [h1, h2]

example : Perm.str ⟨false, [(4, 2), (2, 4), (0, 5), (5, 1), (1, 0)], some 17, 17⟩ =
    .ok "Perm([[0, 5, 1], [2, 4]], perilen=17)".toList := by decide

/-! ## C18: `cycles_dynamic` -/

theorem mod_add_eq {l i j x y : Nat} (hx : x < l) (hy : y < l) (h : x + i * l = y + j * l) : i = j ∧ x = y := by
  have h1 : (x + i * l) % l = (y + j * l) % l := by rw [h]
  rw [Nat.add_mul_mod_self_right, Nat.add_mul_mod_self_right, Nat.mod_eq_of_lt hx, Nat.mod_eq_of_lt hy] at h1
  subst h1
  have : i * l = j * l := by omega
  exact ⟨Nat.eq_of_mul_eq_mul_right (by omega) this, rfl⟩

/-- The list of cycles for `k` periods: each moved number below `k*l` occurs exactly once, each cycle
lists successive images, and the permutation can be rebuilt from it. -/
theorem C18_cycles_dynamic (p : Perm) (hp : Constructed p) (l : Nat) (hl : p.perilen = some l) (n : Nat) :
    (l ∣ n → ∃ cs, p.cyclesDynamic (some n) = .ok cs ∧ cs.flatten.Nodup ∧
      (∀ x, x ∈ cs.flatten ↔ x < n ∧ p.get x ≠ x) ∧
      (∀ c ∈ cs, ∀ i (hi : i < c.length),
        p.get c[i] = c[(i + 1) % c.length]'(Nat.mod_lt _ (Nat.lt_of_le_of_lt (Nat.zero_le _) hi))) ∧
      (0 < n → OkEq (mkPerm (.cycles cs) (some n)) (.ok p))) ∧
    (¬ l ∣ n → p.cyclesDynamic (some n) = .error .lengthMismatchPerilen) := by
  have h2 := hp.wf.per_ge l hl
  refine ⟨?_, ?_⟩
  swap
  · intro h; unfold Perm.cyclesDynamic; rw [hl]; simp only
    rw [if_neg (fun h' => h (Nat.dvd_of_mod_eq_zero h'))]
  rintro ⟨k, rfl⟩
  obtain ⟨bs, c1, c3, c4, c5, c6, c7⟩ := C10_cycles p hp
  have hlt : ∀ x ∈ bs.flatten, x < l := fun x hx => ((c4 x).1 hx).2 l hl
  let cs := (List.range k).flatMap (fun i => bs.map (fun c => c.map (· + i * l)))
  have hcs : p.cyclesDynamic (some (l * k)) = .ok cs := by
    unfold Perm.cyclesDynamic; rw [hl]; simp only
    rw [if_pos (Nat.mul_mod_right l k), c1, Nat.mul_div_cancel_left _ (by omega)]
  have hflat : cs.flatten = (List.range k).flatMap (fun i => bs.flatten.map (· + i * l)) := by
    simp only [cs]
    rw [List.flatMap_def, List.flatMap_def, List.flatten_flatten, List.map_map]
    congr 1
    apply List.map_congr_left
    intro i _
    simp [Function.comp, List.map_flatten]
  have hmem : ∀ x, x ∈ cs.flatten ↔ x < l * k ∧ p.get x ≠ x := by
    intro x
    rw [hflat, List.mem_flatMap]
    constructor
    · rintro ⟨i, hi, hx⟩
      obtain ⟨y, hy, rfl⟩ := List.mem_map.1 hx
      rw [List.mem_range] at hi
      have hyl := hlt y hy
      have : l * (i + 1) ≤ l * k := Nat.mul_le_mul_left _ hi
      rw [Nat.mul_add, Nat.mul_one, Nat.mul_comm l i] at this
      refine ⟨by omega, ?_⟩
      rw [(hp.wf.shift hl).mul i y]
      have := ((c4 y).1 hy).1
      omega
    · rintro ⟨h3, h4⟩
      refine ⟨x / l, ?_, ?_⟩
      · rw [List.mem_range, Nat.div_lt_iff_lt_mul (by omega), Nat.mul_comm]; exact h3
      · rw [List.mem_map]
        refine ⟨x % l, ?_, by rw [Nat.mul_comm]; exact Nat.mod_add_div x l⟩
        rw [c4]
        refine ⟨?_, fun l' hl' => ?_⟩
        · intro h5
          apply h4
          have h6 := (hp.wf.shift hl).mul (x / l) (x % l)
          rw [Nat.mul_comm (x / l), Nat.mod_add_div, h5, Nat.mod_add_div] at h6
          exact h6
        · rw [hl] at hl'; cases hl'; exact Nat.mod_lt _ (by omega)
  have hnod : cs.flatten.Nodup := by
    rw [hflat, List.nodup_flatMap]
    refine ⟨?_, ?_⟩
    · intro i _
      exact c3.map (fun a b h => by simpa using h)
    · apply List.Nodup.pairwise_of_forall_ne List.nodup_range
      intro i _ j _ hij x hx hx'
      obtain ⟨y, hy, rfl⟩ := List.mem_map.1 hx
      obtain ⟨z, hz, hzy⟩ := List.mem_map.1 hx'
      exact hij (mod_add_eq (hlt y hy) (hlt z hz) hzy.symm).1
  have hcyc : ∀ c ∈ cs, ∀ i (hi : i < c.length),
        p.get c[i] = c[(i + 1) % c.length]'(Nat.mod_lt _ (Nat.lt_of_le_of_lt (Nat.zero_le _) hi)) := by
    intro c hc i hi
    obtain ⟨j, hj, hc'⟩ := List.mem_flatMap.1 hc
    obtain ⟨b, hb, rfl⟩ := List.mem_map.1 hc'
    have hib : i < b.length := by simpa using hi
    simp only [List.getElem_map, List.length_map]
    rw [(hp.wf.shift hl).mul j, (c5 b hb).2 i hib]
  refine ⟨cs, hcs, hnod, hmem, hcyc, ?_⟩
  intro h0
  obtain ⟨m, m1, m2, m3, m4⟩ := argMapping_cycles hnod
  have hk : ∀ x ∈ m.keys, x < l * k := by
    intro x hx
    by_contra hc
    apply m2.mem_keys_iff_ne.1 hx
    apply m4
    rw [hmem]
    exact fun h => hc h.1
  obtain ⟨q, q1, q2, q3⟩ := finish_same_per m2 hp.wf hl ⟨k, rfl⟩ h0 hk (by
    intro x hx
    by_cases hxc : x ∈ cs.flatten
    · obtain ⟨c, hc, hxc⟩ := List.mem_flatten.1 hxc
      obtain ⟨i, hi, rfl⟩ := List.getElem_of_mem hxc
      rw [hcyc c hc i hi]
      exact m3 c hc _ _ ⟨i, hi, rfl, rfl⟩
    · rw [m4 x hxc]
      rw [hmem] at hxc
      by_contra hc
      exact hxc ⟨hx, fun h => hc h.symm⟩)
  have hmk : mkPerm (.cycles cs) (some (l * k)) = .ok q := by unfold mkPerm; rw [m1]; exact q1
  exact okEq_of (p := q) (q := p) hmk rfl ⟨.cycles cs, _, hnod, hmk⟩ hp q3

theorem C18_finite (p : Perm) (h : p.perilen = none) (n : Option Nat) : p.cyclesDynamic n = .error .notPeriodic := by
  unfold Perm.cyclesDynamic; rw [h]

theorem C18_default (p : Perm) (l : Nat) (h : p.perilen = some l) : p.cyclesDynamic none = p.cyclesDynamic (some l) := by
  unfold Perm.cyclesDynamic; rw [h]; simp

example : Perm.cyclesDynamic ⟨false, [(0, 2), (2, 0)], some 4, 4⟩ (some 12) = .ok [[0, 2], [4, 6], [8, 10]] := by decide

end Verif.P
