import Verif.Boolf.Props64

/-!
# C113-C116: the theorems on `ec_clan_matrix`
-/

namespace Verif.BF
open Verif.Py Verif.BV Verif.P Verif.W Verif.SP
open Verif.A hiding Mat

/-- **C113.** The matrix has the factions and families of `ec_clan_partitioned`.  Its dictionaries contain exactly the signed permutations (given by the indices of `keyneg`, `perm`
and `valneg`) that turn `f` into the function with the given Zhegalkin index, and their projections. -/
theorem C113_index_triples (f : Boolf) (hf : Reach f) (hroot : f.isRoot = true) (ha : f.isConstant = true ∨ f.adicity ≤ 5) (order : List Boolf → List Boolf)
    (orderPerm orderNeg : List (List Boolf) → List (List Boolf)) (ho : ∀ l, (order l).Perm l) (hop : ∀ l, (orderPerm l).Perm l) (hon : ∀ l, (orderNeg l).Perm l) :
    ∃ R M, f.ecClanPartitioned order orderPerm orderNeg = .ok R ∧ f.ecClanMatrix order orderPerm orderNeg = .ok M ∧
      (M.factionReps = R.factionReps ∧ M.familyReps = R.familyReps ∧ M.factionDict = R.factionDict ∧ M.familyDict = R.familyDict) ∧
      ListsOf tripleLt (fun z t => ∃ g, Reach g ∧ g.zhe = .ok z ∧ Turns f g t.1 t.2.1 t.2.2) M.zheTriples ∧
      ListsOf (· < ·) (fun z k => ∃ g p v, Reach g ∧ g.zhe = .ok z ∧ Turns f g k p v) M.zheKeynegs ∧
      ListsOf (· < ·) (fun z v => ∃ g k p, Reach g ∧ g.zhe = .ok z ∧ Turns f g k p v) M.zheValnegs ∧
      ListsOf (· < ·) (fun a k => ∃ A z g p v, (a, A) ∈ M.factionDict ∧ z ∈ A ∧ Reach g ∧ g.zhe = .ok z ∧ Turns f g k p v) M.factionKeynegs ∧
      ListsOf (· < ·) (fun b p => ∃ B z g k v, (b, B) ∈ M.familyDict ∧ z ∈ B ∧ Reach g ∧ g.zhe = .ok z ∧ Turns f g k p v) M.familyPerms := by
  obtain ⟨R, M, sym, h1, h2, h⟩ := clan_matrix f hf hroot ha order orderPerm orderNeg ho hop hon
  exact ⟨R, M, h1, h2, ⟨h.factionReps, h.familyReps, h.factionDict, h.familyDict⟩, h.triples, h.keynegs, h.valnegs, h.factionKeynegs, h.familyPerms⟩

/-- **C113.** The result does not depend on the orders in which python iterates over the sets. -/
theorem C113_order (f : Boolf) (hf : Reach f) (ha : f.isConstant = true ∨ f.adicity ≤ 5) (order order' : List Boolf → List Boolf)
    (orderPerm orderNeg orderPerm' orderNeg' : List (List Boolf) → List (List Boolf)) (ho : ∀ l, (order l).Perm l) (hop : ∀ l, (orderPerm l).Perm l)
    (hon : ∀ l, (orderNeg l).Perm l) (ho' : ∀ l, (order' l).Perm l) (hop' : ∀ l, (orderPerm' l).Perm l) (hon' : ∀ l, (orderNeg' l).Perm l) :
    f.ecClanMatrix order orderPerm orderNeg = f.ecClanMatrix order' orderPerm' orderNeg' := by
  unfold Boolf.ecClanMatrix
  by_cases hroot : f.isRoot = true
  · rw [C105_order f hf hroot ha order order' orderPerm orderNeg orderPerm' orderNeg' ho hop hon ho' hop' hon']
  · rw [if_neg hroot, if_neg hroot]

/-- **C113.** Functions that are not roots and those with more than five arguments are rejected. -/
theorem C113_errors (f : Boolf) (order : List Boolf → List Boolf) (orderPerm orderNeg : List (List Boolf) → List (List Boolf)) :
    (f.isRoot = false → f.ecClanMatrix order orderPerm orderNeg = .error .notSpreadless) ∧
    (f.isRoot = true → f.isConstant = false → 5 < f.adicity → f.ecClanMatrix order orderPerm orderNeg = .error .argNotFeasible) := by
  unfold Boolf.ecClanMatrix
  constructor
  · intro h
    rw [if_neg (by rw [h]; decide)]
  · intro h hc ha
    rw [if_pos h, (C96_errors 0 f hc none false).1 ha]
    rfl

/-- a dictionary whose lists divide the numbers below `n` -/
structure Divides (n : Nat) (reps : List Nat) (D : Dict Nat (List Nat)) : Prop where
  keys : D.keys = reps
  nonempty : ∀ e ∈ D, e.2 ≠ []
  all : ∀ k, k < n ↔ ∃ e ∈ D, k ∈ e.2
  disjoint : ∀ e ∈ D, ∀ e' ∈ D, ∀ k, k ∈ e.2 → k ∈ e'.2 → e = e'

theorem eq_of_key {β : Type} {D : Dict Nat β} (hk : D.keys.Nodup) {a : Nat} {l l' : β} (h : (a, l) ∈ D) (h' : (a, l') ∈ D) : l = l' := by
  have := (Dict.get?_iff_mem hk).2 h
  rw [(Dict.get?_iff_mem hk).2 h'] at this
  exact (Option.some.inj this).symm

/-- **C114.** The lists of `keyneg` indices of the factions divide the numbers below `2 ** arity`, and the lists of `perm` indices of the families divide the numbers below the
factorial of the arity. -/
theorem C114_partitions (f : Boolf) (hf : Reach f) (hroot : f.isRoot = true) (ha : f.isConstant = true ∨ f.adicity ≤ 5) (order : List Boolf → List Boolf)
    (orderPerm orderNeg : List (List Boolf) → List (List Boolf)) (ho : ∀ l, (order l).Perm l) (hop : ∀ l, (orderPerm l).Perm l) (hon : ∀ l, (orderNeg l).Perm l) :
    ∃ M, f.ecClanMatrix order orderPerm orderNeg = .ok M ∧ Divides (2 ^ f.adicity) M.factionReps M.factionKeynegs ∧
      Divides (Nat.factorial f.adicity) M.familyReps M.familyPerms := by
  obtain ⟨R, M, sym, h1, h2, h⟩ := clan_matrix f hf hroot ha order orderPerm orderNeg ho hop hon
  obtain ⟨R', hR', P, Q, _, _, _⟩ := C105_clan_partitioned f hf hroot ha order orderPerm orderNeg ho hop hon
  rw [h1] at hR'
  cases hR'
  rw [← h.factionReps, ← h.factionDict] at P
  rw [← h.familyReps, ← h.familyDict] at Q
  have hlen : f.valency = f.adicity := by
    have h1 := (isRoot_iff hf.canon.toSound).1 hroot
    apply le_antisymm (by rw [hf.canon.val]; exact length_le_adicity hf.canon)
    rw [hf.canon.adic]
    intro x hx
    rw [h1] at hx
    exact List.mem_range.1 hx
  have hA : f.atomvals = List.range f.adicity := by rw [← hlen]; exact (isRoot_iff hf.canon.toSound).1 hroot
  obtain ⟨E, lab, κ, r, C⟩ := clan_data hf hlen ha
  have hsucc : ∀ {β : Type} {R : Nat → β → Prop} {lt : β → β → Prop} {d : Dict Nat (List β)}, ListsOf lt R d → ∀ a, a ∈ d.keys ↔ ∃ x, R a x := by
    intro β R lt d hd a
    constructor
    · intro ha
      obtain ⟨l, hl⟩ := Dict.mem_keys_iff.1 ha
      have hm := Dict.get?_mem hl
      obtain ⟨x, hx⟩ := List.exists_mem_of_ne_nil _ (hd.nonempty _ hm)
      exact ⟨x, (hd.mem a x).1 ⟨l, hm, hx⟩⟩
    · rintro ⟨x, hx⟩
      obtain ⟨l, hl, _⟩ := (hd.mem a x).2 hx
      exact List.mem_map.2 ⟨_, hl, rfl⟩
  have heq : ∀ {l m : List Nat}, l.Pairwise (· < ·) → m.Pairwise (· < ·) → (∀ x, x ∈ l ↔ x ∈ m) → l = m := fun hl hm hx =>
    eq_of_perm_of_le ((List.perm_ext_iff_of_nodup (hl.imp ne_of_lt) (hm.imp ne_of_lt)).2 hx) (hl.imp le_of_lt) (hm.imp le_of_lt)
  have hent : ∀ {D : Dict Nat (List Nat)} {a : Nat}, a ∈ D.keys → ∃ l, (a, l) ∈ D := by
    intro D a h
    obtain ⟨l, hl⟩ := Dict.mem_keys_iff.1 h
    exact ⟨l, Dict.get?_mem hl⟩
  have hone : ∀ g, Reach g → SignedRenamed f.adicity f g → ∃ k p v, Turns f g k p v := by
    intro g hg hm
    obtain ⟨i, hi, rfl⟩ := (C.member hf hA hg).1 hm
    exact ⟨_, _, _, (C.turns i hi _ hg).1 rfl⟩
  have hmemb : ∀ i < 2 ^ f.adicity * Nat.factorial f.adicity, SignedRenamed f.adicity f (lab i) := fun i hi => (C.member hf hA (C.reach i hi)).2 ⟨i, hi, rfl⟩
  refine ⟨M, h2, ⟨?_, h.factionKeynegs.nonempty, fun k => ⟨fun hk => ?_, ?_⟩, ?_⟩, ⟨?_, h.familyPerms.nonempty, fun p => ⟨fun hp => ?_, ?_⟩, ?_⟩⟩
  · apply heq h.factionKeynegs.keys P.ascReps
    intro a
    rw [hsucc h.factionKeynegs, ← P.keys]
    constructor
    · rintro ⟨k, A, z, g, p, v, hA, _⟩
      exact List.mem_map.2 ⟨_, hA, rfl⟩
    · intro h0
      obtain ⟨A, hA⟩ := hent h0
      obtain ⟨g, g1, g2⟩ := P.index _ hA a (P.mem_head hA)
      obtain ⟨k, p, v, ht⟩ := hone g g1 ((P.all g a g1 g2).1 ⟨_, hA, P.mem_head hA⟩)
      exact ⟨k, A, a, g, p, v, hA, P.mem_head hA, g1, g2, ht⟩
  · obtain ⟨i, hi, rfl, _⟩ := C.pair hk (Nat.factorial_pos _)
    obtain ⟨z, hz⟩ := zhe_exists (C.reach i hi)
    obtain ⟨⟨a, A⟩, e1, e2⟩ := (P.all _ z (C.reach i hi) hz).2 (hmemb i hi)
    obtain ⟨l, l1, l2⟩ := (h.factionKeynegs.mem a (κ i)).2 ⟨A, z, lab i, _, _, e1, e2, C.reach i hi, hz, (C.turns i hi _ (C.reach i hi)).1 rfl⟩
    exact ⟨_, l1, l2⟩
  · rintro ⟨⟨a, l⟩, l1, l2⟩
    obtain ⟨A, z, g, p, v, _, _, g1, _, ht⟩ := (h.factionKeynegs.mem a k).1 ⟨l, l1, l2⟩
    obtain ⟨i, hi, _, rfl, _⟩ := C.turns_index g1 ht
    exact C.keyneg i hi
  · rintro ⟨a, l⟩ he ⟨a', l'⟩ he' k hk hk'
    obtain ⟨A, z, g, p, v, q1, q2, q3, q4, q5⟩ := (h.factionKeynegs.mem a k).1 ⟨l, he, hk⟩
    obtain ⟨A', z', g', p', v', q1', q2', q3', q4', q5'⟩ := (h.factionKeynegs.mem a' k).1 ⟨l', he', hk'⟩
    obtain ⟨i, hi, rfl, rfl, _⟩ := C.turns_index q3 q5
    obtain ⟨j, hj, rfl, hjk, _⟩ := C.turns_index q3' q5'
    have hren := C.renamed hA hi hj hjk.symm (clan_adicity hf q3 hroot (hmemb i hi))
    have hz' := (P.same _ q1 (lab i) (lab j) z z' q3 q3' (hmemb j hj) q4 q4' q2).2 hren
    obtain rfl : a = a' := congrArg Prod.fst (P.disjoint q1 q1' hz' q2')
    rw [eq_of_key (h.factionKeynegs.keys.imp ne_of_lt) he he']
  · apply heq h.familyPerms.keys Q.ascReps
    intro b
    rw [hsucc h.familyPerms, ← Q.keys]
    constructor
    · rintro ⟨k, B, z, g, p, v, hB, _⟩
      exact List.mem_map.2 ⟨_, hB, rfl⟩
    · intro h0
      obtain ⟨B, hB⟩ := hent h0
      obtain ⟨g, g1, g2⟩ := Q.index _ hB b (Q.mem_head hB)
      obtain ⟨k, p, v, ht⟩ := hone g g1 ((Q.all g b g1 g2).1 ⟨_, hB, Q.mem_head hB⟩)
      exact ⟨p, B, b, g, k, v, hB, Q.mem_head hB, g1, g2, ht⟩
  · obtain ⟨i, hi, _, rfl⟩ := C.pair (Nat.two_pow_pos _) hp
    obtain ⟨z, hz⟩ := zhe_exists (C.reach i hi)
    obtain ⟨⟨b, B⟩, e1, e2⟩ := (Q.all _ z (C.reach i hi) hz).2 (hmemb i hi)
    obtain ⟨l, l1, l2⟩ := (h.familyPerms.mem b _).2 ⟨B, z, lab i, _, _, e1, e2, C.reach i hi, hz, (C.turns i hi _ (C.reach i hi)).1 rfl⟩
    exact ⟨_, l1, l2⟩
  · rintro ⟨⟨b, l⟩, l1, l2⟩
    obtain ⟨B, z, g, k, v, _, _, _, _, ht⟩ := (h.familyPerms.mem b p).1 ⟨l, l1, l2⟩
    exact ht.2.1
  · rintro ⟨b, l⟩ he ⟨b', l'⟩ he' p hp hp'
    obtain ⟨B, z, g, k, v, q1, q2, q3, q4, q5⟩ := (h.familyPerms.mem b p).1 ⟨l, he, hp⟩
    obtain ⟨B', z', g', k', v', q1', q2', q3', q4', q5'⟩ := (h.familyPerms.mem b' p).1 ⟨l', he', hp'⟩
    obtain ⟨i, hi, rfl, _, rfl, _⟩ := C.turns_index q3 q5
    obtain ⟨j, hj, rfl, _, hjp, _⟩ := C.turns_index q3' q5'
    have hneg := C.negated hA hi hj hjp.symm
    have hz' := (Q.same _ q1 (lab i) (lab j) z z' q3 q3' (hmemb j hj) q4 q4' q2).2 hneg
    obtain rfl : b = b' := congrArg Prod.fst (Q.disjoint q1 q1' hz' q2')
    rw [eq_of_key (h.familyPerms.keys.imp ne_of_lt) he he']

/-- **C115.** All Zhegalkin indices of a faction have the same binary weight, which is the entry of `faction_rep_to_weight` (the assertion never fails).  All splinters of a faction have
the size in `faction_splinter_sizes`, and the faction has as many members as this size times the number of families.  `lcm_of_splinter_sizes` is the least common multiple. -/
theorem C115_weights_sizes (f : Boolf) (hf : Reach f) (hroot : f.isRoot = true) (ha : f.isConstant = true ∨ f.adicity ≤ 5) (order : List Boolf → List Boolf)
    (orderPerm orderNeg : List (List Boolf) → List (List Boolf)) (ho : ∀ l, (order l).Perm l) (hop : ∀ l, (orderPerm l).Perm l) (hon : ∀ l, (orderNeg l).Perm l) :
    ∃ R M, f.ecClanPartitioned order orderPerm orderNeg = .ok R ∧ f.ecClanMatrix order orderPerm orderNeg = .ok M ∧
      (M.weights.keys = M.factionReps ∧ ∀ a A, (a, A) ∈ M.factionDict → ∃ w, M.weights.get? a = some (some w) ∧ ∀ z ∈ A, weightOf z = w) ∧
      (M.sizes.keys = M.factionReps ∧ ∀ a b L, R.splinterDict.get? (a, b) = some L → M.sizes.get? a = some L.length) ∧
      (∀ a A, (a, A) ∈ M.factionDict → ∃ s, M.sizes.get? a = some s ∧ A.length = s * M.familyReps.length) ∧
      0 < M.lcm ∧ ∀ d, M.lcm ∣ d ↔ ∀ a s, M.sizes.get? a = some s → (s : Int) ∣ d := by
  obtain ⟨R, M, sym, h1, h2, h⟩ := clan_matrix f hf hroot ha order orderPerm orderNeg ho hop hon
  obtain ⟨R', hR', P, Q, X, Xne, Xlen⟩ := C105_clan_partitioned f hf hroot ha order orderPerm orderNeg ho hop hon
  rw [h1] at hR'
  cases hR'
  refine ⟨R, M, h1, h2, h.weights, h.sizes, fun a A hA => ?_, h.lcm⟩
  rw [h.factionDict] at hA
  rw [h.familyReps, ← Q.keys]
  obtain ⟨s, hs⟩ : ∃ s, M.sizes.get? a = some s := by
    apply Dict.mem_keys_iff.1
    rw [h.sizes.1, h.factionReps, ← P.keys]
    exact List.mem_map.2 ⟨_, hA, rfl⟩
  refine ⟨s, hs, ?_⟩
  have hcell : ∀ e ∈ R.familyDict, (A.filter fun z => decide (z ∈ e.2)).length = s := by
    rintro ⟨b, B⟩ he
    obtain ⟨L, l1, l2, l3⟩ := X.part a A b B hA he
    have := h.sizes.2 a b L l1
    rw [hs] at this
    cases this
    apply List.Perm.length_eq
    rw [List.perm_ext_iff_of_nodup (((P.asc _ hA).imp ne_of_lt : A.Nodup).filter _) (l2.imp ne_of_lt)]
    intro z
    rw [l3]
    simp
  have hperm : (R.familyDict.flatMap fun e => A.filter fun z => decide (z ∈ e.2)).Perm A := by
    rw [List.perm_ext_iff_of_nodup _ ((P.asc _ hA).imp ne_of_lt)]
    · intro z
      simp only [List.mem_flatMap, List.mem_filter, decide_eq_true_eq]
      constructor
      · rintro ⟨_, _, h, _⟩
        exact h
      · intro hz
        obtain ⟨g, g1, g2⟩ := P.index _ hA z hz
        obtain ⟨e, he, hze⟩ := (Q.all g z g1 g2).2 ((P.all g z g1 g2).1 ⟨_, hA, hz⟩)
        exact ⟨e, he, hz, hze⟩
    · rw [List.nodup_flatMap]
      refine ⟨fun e _ => ((P.asc _ hA).imp ne_of_lt : A.Nodup).filter _, ?_⟩
      have hnd : R.familyDict.Nodup := List.Nodup.of_map _ Q.nodup
      refine List.Pairwise.imp_of_mem ?_ hnd
      intro e e' he he' hne z hz hz'
      simp only [List.mem_filter, decide_eq_true_eq] at hz hz'
      exact hne (Q.disjoint he he' hz.2 hz'.2)
  rw [← hperm.length_eq, List.length_flatMap, List.map_congr_left hcell, List.map_const', List.sum_replicate, Dict.keys, List.length_map, smul_eq_mul, Nat.mul_comm]

theorem Aligned.least {sym : Nat → Nat} {needs : Nat → Prop} {raw : Dict (Nat × Nat) (List Nat)} {a b : Nat} {L : List Nat} (hn : needs a)
    (hL : raw.get? (a, b) = some L) : ∃ a₀ L₀, needs a₀ ∧ raw.get? (a₀, b) = some L₀ ∧ (L.map sym).Perm (L₀.map sym) ∧
      ∀ a' L', needs a' → raw.get? (a', b) = some L' → (L'.map sym).Perm (L₀.map sym) → a₀ ≤ a' := by
  classical
  have hex : ∃ a₀, ∃ L₀, needs a₀ ∧ raw.get? (a₀, b) = some L₀ ∧ (L.map sym).Perm (L₀.map sym) := ⟨a, L, hn, hL, List.Perm.refl _⟩
  obtain ⟨L₀, h1, h2, h3⟩ := Nat.find_spec hex
  exact ⟨_, L₀, h1, h2, h3, fun a' L' q1 q2 q3 => Nat.find_min' hex ⟨L', q1, q2, h3.trans q3.symm⟩⟩

/-- lists with the same entries and the same sequence of keys, with ascending entries for each key, are equal -/
theorem eq_of_keyed {s : Nat → Nat} : ∀ {l m : List Nat}, l.Perm m → l.map s = m.map s → (l.Pairwise fun x y => s x = s y → x < y) →
    (m.Pairwise fun x y => s x = s y → x < y) → l = m
  | [], m, h, _, _, _ => h.nil_eq
  | x :: l, [], h, _, _, _ => absurd h.length_eq (by simp)
  | x :: l, y :: m, h, hs, hl, hm => by
    simp only [List.map_cons, List.cons.injEq] at hs
    obtain rfl : x = y := by
      by_contra hxy
      rw [List.pairwise_cons] at hl hm
      have h1 : x ∈ m := by
        rcases List.mem_cons.1 (h.mem_iff.1 (by simp : x ∈ x :: l)) with h | h
        · exact absurd h hxy
        · exact h
      have h2 : y ∈ l := by
        rcases List.mem_cons.1 (h.mem_iff.2 (by simp : y ∈ y :: m)) with h | h
        · exact absurd h.symm hxy
        · exact h
      have := hl.1 y h2 hs.1
      have := hm.1 x h1 hs.1.symm
      omega
    rw [eq_of_keyed (List.perm_cons _ |>.1 h) hs.2 (List.pairwise_cons.1 hl).2 (List.pairwise_cons.1 hm).2]

/-- **C116.** The splinters in the result have the entries of those of `ec_clan_partitioned`.  They are different only for factions whose splinters have several entries and whose
representative has symmetries (`sym` is the `intval` of the `perm_symmetry_partition`); for these the order is described by `Aligned`.  The least of the reordered factions with the same
symmetries in a column keeps its order. -/
theorem C116_splinters (f : Boolf) (hf : Reach f) (hroot : f.isRoot = true) (ha : f.isConstant = true ∨ f.adicity ≤ 5) (order : List Boolf → List Boolf)
    (orderPerm orderNeg : List (List Boolf) → List (List Boolf)) (ho : ∀ l, (order l).Perm l) (hop : ∀ l, (orderPerm l).Perm l) (hon : ∀ l, (orderNeg l).Perm l) :
    ∃ R M sym, f.ecClanPartitioned order orderPerm orderNeg = .ok R ∧ f.ecClanMatrix order orderPerm orderNeg = .ok M ∧
      (∀ z g, Reach g → SignedRenamed f.adicity f g → g.zhe = .ok z → ∃ p, g.permSymmetryPartition = .ok p ∧ sym z = p.intval.1) ∧
      Aligned sym (fun a => ∃ s, M.sizes.get? a = some s ∧ 1 < s ∧ sym a ≠ 0) R.splinterDict M.splinterDict ∧
      (∀ a b L, R.splinterDict.get? (a, b) = some L → ∃ L', M.splinterDict.get? (a, b) = some L' ∧ L'.Perm L) ∧
      ∀ a b L, R.splinterDict.get? (a, b) = some L → (∀ a' L', (∃ s, M.sizes.get? a' = some s ∧ 1 < s ∧ sym a' ≠ 0) → R.splinterDict.get? (a', b) = some L' →
        (L'.map sym).Perm (L.map sym) → a ≤ a') → M.splinterDict.get? (a, b) = some L := by
  obtain ⟨R, M, sym, h1, h2, h⟩ := clan_matrix f hf hroot ha order orderPerm orderNeg ho hop hon
  obtain ⟨R', hR', P, Q, X, Xne, Xlen⟩ := C105_clan_partitioned f hf hroot ha order orderPerm orderNeg ho hop hon
  rw [h1] at hR'
  cases hR'
  refine ⟨R, M, sym, h1, h2, ?_, h.aligned, ?_, ?_⟩
  · intro z g g1 g2 g3
    have hc : g.isConstant = true ∨ g.valency ≤ 5 := by
      rcases ha with hc | h5
      · obtain ⟨_, _, _, h2⟩ := g2.replaced hf g1
        rw [h2.constant hf.canon g1.canon hc]
        exact .inl hc
      · refine .inr (le_trans ?_ h5)
        rw [← clan_adicity hf g1 hroot g2, g1.canon.val]
        exact length_le_adicity g1.canon
    obtain ⟨p, p1, _⟩ := permSymmetryPartition_spec g1 hc
    exact ⟨p, p1, h.symmetry z g p g1 g2 g3 p1⟩
  · intro a b L hL
    by_cases hn : ∃ s, M.sizes.get? a = some s ∧ 1 < s ∧ sym a ≠ 0
    · obtain ⟨a₀, L₀, q1, q2, q3, q4⟩ := Aligned.least (sym := sym) (needs := fun a => ∃ s, M.sizes.get? a = some s ∧ 1 < s ∧ sym a ≠ 0) hn hL
      obtain ⟨L', l1, l2, _⟩ := h.aligned.aligned a a₀ b L L₀ hn q1 hL q2 q3 q4
      exact ⟨L', l1, l2⟩
    · exact ⟨L, by rw [h.aligned.same a b hn, hL], List.Perm.refl _⟩
  · intro a b L hL hmin
    by_cases hn : ∃ s, M.sizes.get? a = some s ∧ 1 < s ∧ sym a ≠ 0
    · obtain ⟨L', l1, l2, l3, l4⟩ := h.aligned.aligned a a b L L hn hn hL hL (List.Perm.refl _) hmin
      have hasc : L.Pairwise (· < ·) := by
        have hk : (a, b) ∈ R.splinterDict.keys := Dict.mem_keys_iff.2 ⟨L, hL⟩
        rw [X.keys] at hk
        obtain ⟨k1, k2⟩ := List.mem_product.1 hk
        obtain ⟨A, hA⟩ := Dict.mem_keys_iff.1 k1
        obtain ⟨B, hB⟩ := Dict.mem_keys_iff.1 k2
        obtain ⟨L'', m1, m2, _⟩ := X.part a A b B (Dict.get?_mem hA) (Dict.get?_mem hB)
        rw [hL] at m1
        cases m1
        exact m2
      have hasc' : L.Pairwise fun x y => sym x = sym y → x < y := by
        refine hasc.imp ?_
        intro x y h _
        exact h
      rw [l1, eq_of_keyed l2 l3 l4 hasc']
    · rw [h.aligned.same a b hn, hL]

/-- The conjunction of two atoms meets the hypotheses of the theorems. -/
example : ∃ f, newTT (.str "0001".toList) = .ok f ∧ Reach f ∧ f.isRoot = true ∧ f.isConstant = false ∧ f.adicity = 2 ∧ (∀ l : List Boolf, (l.reverse).Perm l) := by
  obtain ⟨_, e1, e2⟩ := newTT_explicit "0001".toList [false, false, false, true] [0, 1] 2 (by decide) (by decide) (by decide) (by intro n; simp; omega) (by decide) (by decide)
  exact ⟨_, e1 (by decide), e2.reach, by decide, by decide, by decide, fun l => l.reverse_perm⟩

end Verif.BF
