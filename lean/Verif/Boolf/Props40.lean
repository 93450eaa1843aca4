import Verif.Boolf.Props39

/-!
# C96: the equivalence class under negation and permutation of atoms (`ec_clan`)
-/

namespace Verif.BF
open Verif.Py Verif.BV Verif.P Verif.W Verif.SP
open Verif.A hiding Mat

/-- a literal: a number, or its negation -/
def slit (b : Bool) (z : Int) : Int := if b then inv z else z

theorem lit_slit (a : Nat → Bool) (b : Bool) (y : Nat) : lit a (slit b y) = (a y ^^ b) := by
  unfold slit lit
  cases b with
  | false => rw [if_neg (by decide), logicAbs_natCast, decide_eq_false (by omega)]; rfl
  | true =>
    rw [if_pos rfl]
    unfold logicAbs inv
    rw [if_pos (by omega), decide_eq_true (by omega)]
    congr 2
    omega

theorem abs_slit (b : Bool) (y : Nat) : (logicAbs (slit b y)).toNat = y := by
  unfold slit
  cases b with
  | false => rw [if_neg (by decide), logicAbs_natCast]; rfl
  | true => rw [if_pos rfl]; unfold logicAbs inv; rw [if_pos (by omega)]; omega

theorem sigpermOf_spec {n k : Nat} {s : List Nat} (h : (revColexPerms n)[k]? = some s) (m : Nat) :
    ∃ σ p, sigpermOf m s = .ok σ ∧ SG.Finite σ ∧ intToPerm k = .ok p ∧ (∀ i, i < n → s[i]? = some (p.get i)) ∧ (∀ i, i < n → p.get i < n) ∧
      Function.Injective p.get ∧ (∀ i, σ.value i = slit (m.testBit (p.get i)) (p.get i : Nat)) ∧ (m < 2 ^ n → σ.length ≤ n) := by
  obtain ⟨hs, p, p1, p2, p3, p4, p5, p', p6, p7⟩ := perm_at h
  obtain ⟨b, b1, b2, _⟩ := C26_intval_only m
  obtain ⟨σ, σ1, σ2, σ3, _⟩ := SG.C31_valneg b p p2 p3
  have hv : ∀ i, σ.value i = slit (m.testBit (p'.get i)) (p'.get i : Nat) := by
    intro i; rw [σ3, b2, p7]; rfl
  have hg : p'.get = p.get := funext p7
  refine ⟨σ, p', ?_, σ2, p6, fun i hi => by rw [p5 i hi, p7], fun i hi => by rw [p7]; exact p2.wf.maps_below n (Or.inl ⟨p3, p4⟩) i hi,
    by rw [hg]; exact p2.wf.get_bijective.1, hv, fun hm => ?_⟩
  · unfold sigpermOf
    rw [show (BV.mk { intval := some (m : Int) }) = .ok b from b1, p1]
    exact σ1
  · rw [(SG.C31_sequence σ σ2).2.2.2.2.1 n]
    intro i hi
    rw [hv, p7, p2.wf.finite_bounded p3 (by omega), Nat.testBit_lt_two_pow (lt_of_lt_of_le hm (Nat.pow_le_pow_right (by omega) hi))]
    rfl

theorem clanMember_spec {f : Boolf} (hf : Good f) (hc : f.isConstant = false) {n k : Nat} {s : List Nat} (h : (revColexPerms n)[k]? = some s) (m : Nat) :
    ∃ g, f.clanMember m s = .ok g ∧ ∃ p, intToPerm k = .ok p ∧ (∀ i, i < n → s[i]? = some (p.get i)) ∧ (∀ i, i < n → p.get i < n) ∧ Function.Injective p.get ∧
      Lits f (fun x => slit (m.testBit (p.get x)) (p.get x : Nat)) g := by
  obtain ⟨σ, p, h1, h2, h3, h4, h5, h6, h7, _⟩ := sigpermOf_spec h m
  obtain ⟨g, g1, g2, g3⟩ := apply_value hf (w := σ.value) (fun x y => value_inj h2) hc
  refine ⟨g, ?_, p, h3, h4, h5, h6, g2, fun a => by rw [g3]; simp only [h7]⟩
  unfold Boolf.clanMember
  rw [h1]
  simp only [bind, Except.bind]
  rw [(applySigperm_spec hf h2).2 hc, g1]

theorem clanComboMember_spec {f : Boolf} (hf : Good f) (hc : f.isConstant = false) {k m : Nat} {s c : List Nat}
    (h : (revColexPerms f.valency)[k]? = some s) (hm : m < 2 ^ f.valency) (hcl : c.length = f.valency) (hcn : c.Nodup) :
    ∃ g, f.clanComboMember m s c = .ok g ∧ ∃ (p : Perm) (w : List Nat), intToPerm k = .ok p ∧ (∀ i, i < f.valency → s[i]? = some (p.get i)) ∧
      (∀ i, i < f.valency → p.get i < f.valency) ∧ w.Perm c ∧ (∀ i j : Nat, s[i]? = some j → w[j]? = c[i]?) ∧
      Lits f (fun x => slit (m.testBit (f.atomvals.idxOf x)) (w.getD (f.atomvals.idxOf x) 0 : Nat)) g := by
  obtain ⟨σ, p, h1, h2, h3, h4, h5, h6, h7, h8⟩ := sigpermOf_spec h m
  obtain ⟨hs, q, q1, q2, q3, q4, q5, q', q6, q7⟩ := perm_at h
  rw [h3] at q6
  cases q6
  have hb := q2.wf.maps_below f.valency (Or.inl ⟨q3, q4⟩)
  obtain ⟨w, w1, w2, w3, w4⟩ := (C12_apply_on_vector q q2 c).1 (by rw [hcl]; exact hb)
  obtain ⟨z, z1, z2, z3⟩ := (SG.C33_vector σ h2 (c.map Int.ofNat)).1 (by rw [List.length_map, hcl]; exact h8 hm)
  rw [List.length_map] at z2 z3
  have hz : ∀ i, i < f.valency → z[p.get i]? = (c[i]?).map fun y : Nat => slit (m.testBit (p.get i)) y := by
    intro i hi
    obtain ⟨za, zb⟩ := z3 i (by omega)
    rw [h7] at za zb
    rw [List.getElem?_map] at za zb
    by_cases hbit : m.testBit (p.get i) = true
    · have hneg : slit (m.testBit (p.get i)) (p.get i : Nat) < 0 := by unfold slit inv; rw [if_pos hbit]; omega
      have := zb hneg
      rw [show (inv (slit (m.testBit (p.get i)) (p.get i : Nat))).toNat = p.get i by unfold slit inv; rw [if_pos hbit]; omega] at this
      rw [this]
      cases c[i]? with
      | none => rfl
      | some y => simp only [Option.map_some]; unfold slit; rw [if_pos hbit]; rfl
    · have hnn : 0 ≤ slit (m.testBit (p.get i)) (p.get i : Nat) := by unfold slit; rw [if_neg hbit]; omega
      have := za hnn
      rw [show (slit (m.testBit (p.get i)) (p.get i : Nat)).toNat = p.get i by unfold slit; rw [if_neg hbit]; omega] at this
      rw [this]
      cases c[i]? with
      | none => rfl
      | some y => simp only [Option.map_some]; unfold slit; rw [if_neg hbit]; rfl
  have hwz : ∀ j, z[j]? = (w[j]?).map fun y : Nat => slit (m.testBit j) y := by
    intro j
    by_cases hj : j < f.valency
    · obtain ⟨i, hi, rfl⟩ := List.mem_map.1 ((surj_below h6 h5).mem_iff.2 (List.mem_range.2 hj))
      rw [List.mem_range] at hi
      rw [hz i hi, q7, w3 i (by omega)]
    · rw [List.getElem?_eq_none (by omega), List.getElem?_eq_none (by omega)]; rfl
  obtain ⟨g, g1, g2⟩ := apply_lits hf hc (z := z) (by rw [z2, hcl]) (by
    rw [show (z.map fun x => (logicAbs x).toNat) = w from by
      apply List.ext_getElem?
      intro j
      rw [List.getElem?_map, hwz j]
      cases w[j]? with
      | none => rfl
      | some y => simp only [Option.map_some, abs_slit]]
    exact w4.nodup_iff.2 hcn)
  refine ⟨g, ?_, p, w, h3, h4, h5, w4, ?_, g2.congr fun x hx => ?_⟩
  · unfold Boolf.clanComboMember
    rw [h1]
    simp only [bind, Except.bind]
    rw [z1]
    exact g1
  · intro i j hij
    have hi : i < f.valency := by rw [← List.length_range (n := f.valency), ← hs.length_eq]; exact (List.getElem?_eq_some_iff.1 hij).1
    rw [q5 i hi] at hij
    cases hij
    exact w3 i (by omega)
  · have hix : f.atomvals.idxOf x < w.length := by rw [w2, hcl, hf.val]; exact List.idxOf_lt_length_of_mem hx
    rw [List.getD_eq_getElem?_getD, List.getD_eq_getElem?_getD, hwz, List.getElem?_eq_getElem hix]
    rfl

theorem ecClanRedundant_spec {f : Boolf} (hf : Good f) (hc : f.isConstant = false) (n : Nat) :
    ∃ q lab, f.ecClanRedundant n = .ok { part := q, dims := [2 ^ n, Nat.factorial n] } ∧ Labelling q (2 ^ n * Nat.factorial n) lab ∧
      ∀ m k s, m < 2 ^ n → (revColexPerms n)[k]? = some s → ∃ p, intToPerm k = .ok p ∧ (∀ i, i < n → s[i]? = some (p.get i)) ∧ (∀ i, i < n → p.get i < n) ∧
        Function.Injective p.get ∧ Lits f (fun x => slit (m.testBit (p.get x)) (p.get x : Nat)) (lab (m * Nat.factorial n + k)) := by
  have hmem : ∀ (m : Nat) (k : List Nat × Nat), (m, k) ∈ ((List.range (2 ^ n)).flatMap fun m => (revColexPerms n).zipIdx.map fun n => (m, n)) ↔
      m < 2 ^ n ∧ (revColexPerms n)[k.2]? = some k.1 := by
    intro m k
    rw [List.mem_flatMap, ← mem_zipIdx_iff]
    constructor
    · rintro ⟨m', h1, h2⟩
      obtain ⟨k', h3, h4⟩ := List.mem_map.1 h2
      cases h4
      exact ⟨List.mem_range.1 h1, h3⟩
    · rintro ⟨h1, h2⟩
      exact ⟨m, List.mem_range.2 h1, List.mem_map.2 ⟨k, h2, rfl⟩⟩
  have hpr : ([2 ^ n, Nat.factorial n]).prod = 2 ^ n * Nat.factorial n := by simp
  obtain ⟨p, q, lab, h1, h2, h3, h4⟩ := labelElements_covers
    (fun i : Nat × (List Nat × Nat) => code [2 ^ n, Nat.factorial n] [i.1, i.2.2]) (fun i => f.clanMember i.1 i.2.1)
    (fun i g => ∃ p, intToPerm i.2.2 = .ok p ∧ (∀ j, j < n → i.2.1[j]? = some (p.get j)) ∧ (∀ i, i < n → p.get i < n) ∧
        Function.Injective p.get ∧ Lits f (fun x => slit (i.1.testBit (p.get x)) (p.get x : Nat)) g)
    ((List.range (2 ^ n)).flatMap fun m => (revColexPerms n).zipIdx.map fun n => (m, n)) [2 ^ n, Nat.factorial n]
    (by
      rintro ⟨m, k⟩ hk
      rw [hmem] at hk
      exact clanMember_spec hf hc hk.2 m)
    (by
      rw [hpr, length_flatMap_const _ _ (Nat.factorial n) (by intro x _; rw [List.length_map, List.length_zipIdx, length_revColexPerms]), List.length_range])
    (by
      intro x hx
      rw [hpr] at hx
      have a1 : x % Nat.factorial n < (revColexPerms n).length := by rw [length_revColexPerms]; exact Nat.mod_lt _ (Nat.factorial_pos n)
      have a2 : x / Nat.factorial n < 2 ^ n := Nat.div_lt_of_lt_mul (by rwa [Nat.mul_comm])
      refine ⟨(x / Nat.factorial n, (_, x % Nat.factorial n)), (hmem _ _).2 ⟨a2, List.getElem?_eq_getElem a1⟩, ?_⟩
      rw [code_two]
      exact Nat.div_add_mod' x _)
  rw [hpr] at h3
  refine ⟨q, lab, ?_, h3, ?_⟩
  · unfold Boolf.ecClanRedundant
    simp only [bind, Except.bind, pure, Except.pure]
    rw [h1]
    simp only
    rw [h2]
  · intro m k s hm hk
    have := h4 (m, (s, k)) ((hmem _ _).2 ⟨hm, hk⟩)
    simp only [code_two] at this
    exact this

theorem ecClanAbbreviated_spec {f : Boolf} (hf : Good f) (hc : f.isConstant = false) (n : Nat) :
    ∃ q lab, f.ecClanAbbreviated n = .ok { part := q, dims := [2 ^ f.valency, Nat.factorial f.valency, Nat.choose n f.valency], combos := some (combinations (List.range n) f.valency) } ∧
      Labelling q (2 ^ f.valency * Nat.factorial f.valency * Nat.choose n f.valency) lab ∧
      ∀ m k s c co, m < 2 ^ f.valency → (revColexPerms f.valency)[k]? = some s → (combinations (List.range n) f.valency)[c]? = some co →
        ∃ (p : Perm) (w : List Nat), intToPerm k = .ok p ∧ (∀ i, i < f.valency → s[i]? = some (p.get i)) ∧
          (∀ i, i < f.valency → p.get i < f.valency) ∧ w.Perm co ∧ (∀ i j : Nat, s[i]? = some j → w[j]? = co[i]?) ∧
          Lits f (fun x => slit (m.testBit (f.atomvals.idxOf x)) (w.getD (f.atomvals.idxOf x) 0 : Nat)) (lab ((m * Nat.factorial f.valency + k) * Nat.choose n f.valency + c)) := by
  have hC : (combinations (List.range n) f.valency).length = Nat.choose n f.valency := by rw [length_combinations, List.length_range]
  have hmem : ∀ (c : List Nat × Nat) (m : Nat) (k : List Nat × Nat), (c, m, k) ∈ ((combinations (List.range n) f.valency).zipIdx.flatMap fun c =>
        (List.range (2 ^ f.valency)).flatMap fun m => (revColexPerms f.valency).zipIdx.map fun n => (c, m, n)) ↔
      (combinations (List.range n) f.valency)[c.2]? = some c.1 ∧ m < 2 ^ f.valency ∧ (revColexPerms f.valency)[k.2]? = some k.1 := by
    intro c m k
    rw [List.mem_flatMap, ← mem_zipIdx_iff, ← mem_zipIdx_iff]
    constructor
    · rintro ⟨c', h0, h1⟩
      obtain ⟨m', h1, h2⟩ := List.mem_flatMap.1 h1
      obtain ⟨k', h3, h4⟩ := List.mem_map.1 h2
      cases h4
      exact ⟨h0, List.mem_range.1 h1, h3⟩
    · rintro ⟨h0, h1, h2⟩
      exact ⟨c, h0, List.mem_flatMap.2 ⟨m, List.mem_range.2 h1, List.mem_map.2 ⟨k, h2, rfl⟩⟩⟩
  have hpr : ([2 ^ f.valency, Nat.factorial f.valency, (combinations (List.range n) f.valency).length]).prod = 2 ^ f.valency * Nat.factorial f.valency * Nat.choose n f.valency := by
    simp [hC, Nat.mul_assoc]
  obtain ⟨p, q, lab, h1, h2, h3, h4⟩ := labelElements_covers
    (fun i : (List Nat × Nat) × Nat × (List Nat × Nat) => code [2 ^ f.valency, Nat.factorial f.valency, (combinations (List.range n) f.valency).length] [i.2.1, i.2.2.2, i.1.2])
    (fun i => f.clanComboMember i.2.1 i.2.2.1 i.1.1)
    (fun i g => ∃ (p : Perm) (w : List Nat), intToPerm i.2.2.2 = .ok p ∧ (∀ j, j < f.valency → i.2.2.1[j]? = some (p.get j)) ∧
          (∀ i, i < f.valency → p.get i < f.valency) ∧ w.Perm i.1.1 ∧ (∀ a b : Nat, i.2.2.1[a]? = some b → w[b]? = i.1.1[a]?) ∧
          Lits f (fun x => slit (i.2.1.testBit (f.atomvals.idxOf x)) (w.getD (f.atomvals.idxOf x) 0 : Nat)) g)
    ((combinations (List.range n) f.valency).zipIdx.flatMap fun c => (List.range (2 ^ f.valency)).flatMap fun m => (revColexPerms f.valency).zipIdx.map fun n => (c, m, n))
    [2 ^ f.valency, Nat.factorial f.valency, (combinations (List.range n) f.valency).length]
    (by
      rintro ⟨c, m, k⟩ hk
      rw [hmem] at hk
      obtain ⟨c1, c2, c3⟩ := (mem_combinations_range _ _ _).1 (List.mem_of_getElem? hk.1)
      exact clanComboMember_spec hf hc hk.2.2 hk.2.1 c3 (c1.imp fun h => Nat.ne_of_lt h))
    (by
      rw [hpr, length_flatMap_const _ _ (2 ^ f.valency * Nat.factorial f.valency), List.length_zipIdx, hC, Nat.mul_comm]
      intro x _
      rw [length_flatMap_const _ _ (Nat.factorial f.valency) (by intro x _; rw [List.length_map, List.length_zipIdx, length_revColexPerms]), List.length_range])
    (by
      intro x hx
      rw [hpr] at hx
      have hC0 : 0 < Nat.choose n f.valency := by
        rcases Nat.eq_zero_or_pos (Nat.choose n f.valency) with h | h
        · rw [h] at hx; simp at hx
        · exact h
      have a0 : x % Nat.choose n f.valency < (combinations (List.range n) f.valency).length := by rw [hC]; exact Nat.mod_lt _ hC0
      have hy : x / Nat.choose n f.valency < 2 ^ f.valency * Nat.factorial f.valency := Nat.div_lt_of_lt_mul (by rwa [Nat.mul_comm])
      have a1 : (x / Nat.choose n f.valency) % Nat.factorial f.valency < (revColexPerms f.valency).length := by
        rw [length_revColexPerms]; exact Nat.mod_lt _ (Nat.factorial_pos _)
      have a2 : (x / Nat.choose n f.valency) / Nat.factorial f.valency < 2 ^ f.valency := Nat.div_lt_of_lt_mul (by rwa [Nat.mul_comm])
      refine ⟨((_, x % Nat.choose n f.valency), (x / Nat.choose n f.valency) / Nat.factorial f.valency, (_, (x / Nat.choose n f.valency) % Nat.factorial f.valency)),
        (hmem _ _ _).2 ⟨List.getElem?_eq_getElem a0, a2, List.getElem?_eq_getElem a1⟩, ?_⟩
      rw [code_three, hC]
      simp only
      rw [Nat.div_add_mod', Nat.div_add_mod'])
  rw [hpr] at h3
  refine ⟨q, lab, ?_, h3, ?_⟩
  · unfold Boolf.ecClanAbbreviated
    simp only [bind, Except.bind, pure, Except.pure]
    rw [h1]
    simp only
    rw [h2, hC]
  · intro m k s c co hm hk hc
    have := h4 ((co, c), m, (s, k)) ((hmem _ _ _).2 ⟨hc, hm, hk⟩)
    simp only [code_three, hC] at this
    exact this

end Verif.BF
