import Verif.Scripts.CayleyProps2

/-!
# C168: the sign parts of the products of signed permutations
-/

namespace Verif.Cay
open Verif.Py Verif.BV Verif.P Verif.SP Verif.SG
open Verif.A hiding Mat

/-- a row of the table of the permutations -/
def rowOf (N k : Nat) : List Int := (List.range N).map fun b => ((k * N + b : Nat) : Int)

theorem mem_rowOf {N k : Nat} {x : Int} : x ∈ rowOf N k ↔ ∃ b < N, x = ((k * N + b : Nat) : Int) := by
  simp only [rowOf, List.mem_map, List.mem_range]
  constructor
  · rintro ⟨b, h, rfl⟩; exact ⟨b, h, rfl⟩
  · rintro ⟨b, h, rfl⟩; exact ⟨b, h, rfl⟩

theorem rowOf_pairwise (N k : Nat) : (rowOf N k).Pairwise (· < ·) := by
  unfold rowOf
  rw [List.pairwise_map]
  refine List.pairwise_lt_range.imp ?_
  intro a b h
  omega

theorem rows_canon {N : Nat} (hN : 2 ≤ N) : SP.Canon ((List.range N).map (rowOf N)) := by
  refine ⟨?_, ?_, ?_, ?_⟩
  · rw [List.pairwise_map]
    refine List.pairwise_lt_range.imp ?_
    intro a b h
    obtain ⟨M, rfl⟩ : ∃ M, N = M + 1 := ⟨N - 1, by omega⟩
    unfold rowOf
    rw [List.range_succ_eq_map, List.map_cons, List.map_cons]
    apply le_of_lt
    apply List.Lex.rel
    have := Nat.mul_lt_mul_of_pos_right h (show 0 < M + 1 by omega)
    omega
  · intro B hB
    obtain ⟨k, _, rfl⟩ := List.mem_map.1 hB
    exact rowOf_pairwise N k
  · intro B hB
    obtain ⟨k, _, rfl⟩ := List.mem_map.1 hB
    simp only [rowOf, List.length_map, List.length_range]
    omega
  · rw [List.nodup_flatten]
    refine ⟨?_, ?_⟩
    · intro B hB
      obtain ⟨k, _, rfl⟩ := List.mem_map.1 hB
      exact (rowOf_pairwise N k).imp (fun h => ne_of_lt h)
    · rw [List.pairwise_map]
      refine List.pairwise_lt_range.imp ?_
      intro a b h
      rw [List.disjoint_left]
      intro x hx hx'
      obtain ⟨c, c1, rfl⟩ := mem_rowOf.1 hx
      obtain ⟨d, d1, e⟩ := mem_rowOf.1 hx'
      have := (pairCode_inj c1 d1 (by exact_mod_cast e)).1
      omega

theorem movedLoop_ok {n : Nat} {cayley : SetPart (Nat × Nat)} {M : Nat → List (List Nat)} : ∀ (l : List (Nat × Nat)) (p q : SetPart (List (List Nat))),
    (∀ ab ∈ l, signCayley n cayley ab.1 ab.2 = .ok (M ab.1)) → p.addLabels (l.map fun ab => ((pairCode n ab.1 ab.2 : Int), M ab.1)) = (.ok (), q) →
    movedLoop n cayley l p = .ok q
  | [], p, q, _, h => by
    cases h
    rfl
  | (a, b) :: l, p, q, hw, h => by
    simp only [List.map_cons, SetPart.addLabels] at h
    have := hw (a, b) List.mem_cons_self
    simp only at this
    simp only [movedLoop, bind, Except.bind]
    rw [this]
    simp only
    cases hx : p.addLabelToElement (pairCode n a b : Int) (M a) with
    | mk r p' =>
      rw [hx] at h
      cases r with
      | error e => simp at h
      | ok u =>
        simp only at h ⊢
        exact movedLoop_ok l p' q (fun ab hab => hw ab (List.mem_cons_of_mem _ hab)) h

theorem rowLoop_ok {n : Nat} {moved : SetPart (List (List Nat))} {M : Nat → List (List Nat)} : ∀ (ks ds : List Nat), (ds ++ ks).Nodup →
    (∀ k ∈ ks, moved.getLabelFromBlock (rowOf n.factorial k) = some (M k)) →
    rowLoop n moved (ks.map (rowOf n.factorial)) (ds.map fun k => (k, M k)) = .ok ((ds ++ ks).map fun k => (k, M k))
  | [], ds, _, _ => by simp [rowLoop]
  | k :: ks, ds, hn, h => by
    have hpos := n.factorial_pos
    have hrow : ∃ rest, rowOf n.factorial k = ((k * n.factorial : Nat) : Int) :: rest := by
      obtain ⟨N, hN⟩ : ∃ N, n.factorial = N + 1 := ⟨n.factorial - 1, by omega⟩
      rw [hN]
      unfold rowOf
      rw [List.range_succ_eq_map, List.map_cons]
      exact ⟨_, rfl⟩
    obtain ⟨rest, hr⟩ := hrow
    have hk := h k List.mem_cons_self
    rw [List.map_cons]
    rw [hr] at hk ⊢
    unfold rowLoop
    simp only [hk]
    rw [Int.toNat_natCast, Nat.mul_div_cancel _ hpos]
    have hnot : k ∉ Dict.keys (ds.map fun k => (k, M k)) := by
      intro hm
      have hm : k ∈ ds := by
        simpa [Dict.keys] using hm
      have := List.disjoint_of_nodup_append hn hm
      simp at this
    rw [Dict.set_of_not_mem _ hnot]
    have e : (ds ++ [k]) ++ ks = ds ++ k :: ks := by simp
    have := rowLoop_ok (n := n) (moved := moved) (M := M) ks (ds ++ [k]) (by rw [e]; exact hn) (fun k' h' => h k' (List.mem_cons_of_mem _ h'))
    rw [e] at this
    simpa using this

/-- The permutation part can be seen from the cube vertex permutation. -/
theorem cvp_inj {n : Nat} {p q : Perm} (hp : Constructed p) (hq : Constructed q) (hpf : p.perilen = none) (hqf : q.perilen = none) (hpl : p.length ≤ n)
    (hql : q.length ≤ n) {s t : SigPerm} (hs : SG.WF s) (ht : SG.WF t) (hsv : s.val = signedValue 0 p) (htv : t.val = signedValue 0 q) {c d : Perm}
    (hc : s.schoutePerm = .ok c) (hd : t.schoutePerm = .ok d) (h : ∀ x < 2 ^ n, c.get x = d.get x) : ∀ i, p.get i = q.get i := by
  obtain ⟨c', c1, _, _, _, c5⟩ := schoute_spec hs
  rw [hc] at c1
  cases c1
  obtain ⟨d', d1, _, _, _, d5⟩ := schoute_spec ht
  rw [hd] at d1
  cases d1
  intro i
  by_cases hi : i < n
  · have h1 := c5 (2 ^ i) i
    rw [hsv, nabs_signedValue, signedValue_neg, Nat.zero_testBit, Nat.testBit_two_pow_self, h _ (Nat.pow_lt_pow_right (by omega) hi)] at h1
    obtain ⟨j, hj⟩ := hq.wf.get_bijective.2 (p.get i)
    have h2 := d5 (2 ^ i) j
    rw [htv, nabs_signedValue, signedValue_neg, Nat.zero_testBit, hj, h1, Nat.testBit_two_pow] at h2
    have : i = j := by simpa using h2
    rw [← hj, this]
  · rw [hp.wf.finite_bounded hpf (by omega), hq.wf.finite_bounded hqf (by omega)]

/-- **C168.** The dict `mc_row_to_sc_matrix`, for at least two places: it assigns a matrix to each index of a permutation, in ascending order.  Row `m` of matrix
`k` is the sequence of the cube vertex permutation of the signed permutation `(m, k)`, which is that of `(0, k)` with `m` added bitwise (so the matrix is a XOR
matrix with permuted columns).  Different indices have different matrices.  For less than two places the dict is empty. -/
theorem C168_sign_parts (n : Nat) :
    (2 ≤ n → ∃ M : Nat → List (List Nat), rowToMatrix n = .ok ((List.range n.factorial).map fun k => (k, M k)) ∧
      (∀ k < n.factorial, ∃ a0 c0, new { pair := some (0, k) } = .ok a0 ∧ a0.schoutePerm = .ok c0 ∧
        (M k).length = 2 ^ n ∧ ∀ m : Nat, m < 2 ^ n → ∃ a c, new { pair := some (m, k) } = .ok a ∧ a.schoutePerm = .ok c ∧
          (M k)[m]? = some ((List.range (2 ^ n)).map c.get) ∧ (M k)[m]? = some ((List.range (2 ^ n)).map fun x => m ^^^ c0.get x)) ∧
      ∀ k < n.factorial, ∀ l < n.factorial, M k = M l → k = l) ∧
    (n < 2 → rowToMatrix n = .ok []) := by
  obtain ⟨P, hP⟩ := exists_listed n
  obtain ⟨t, t1, _, _, t4, t5, t6, _⟩ := C168_signed n
  have hC : ∀ m k : Nat, ∃ s p c, new { pair := some (m, k) } = .ok s ∧ intToPerm k = .ok p ∧ SG.WF s ∧ s.val = signedValue m p ∧ s.schoutePerm = .ok c := by
    intro m k
    obtain ⟨s, p, s1, p1, p2, _, s2, s3, s4, s5⟩ := pair_spec m k
    obtain ⟨c, c1, _⟩ := C135_signed s s2
    exact ⟨s, p, c, s1, p1, s3, s5, c1⟩
  choose A Q C a1 q1 a2 a3 a4 using hC
  have hQ : ∀ m k, k < n.factorial → ∀ i, (P k).get i = (Q m k).get i := by
    intro m k hk
    obtain ⟨q, e1, e2⟩ := hP.idx k hk
    rw [q1 m k] at e1
    cases e1
    exact e2
  have hval : ∀ m k, k < n.factorial → (A m k).val = signedValue m (P k) := by
    intro m k hk
    rw [a3, signedValue_congr (hQ m k hk)]
  have hxor : ∀ m k x, k < n.factorial → (C m k).get x = m ^^^ (C 0 k).get x := by
    intro m k x hk
    exact sign_part_xor (hP.con k hk) (a2 m k) (a2 0 k) (hval m k hk) (hval 0 k hk) (a4 m k) (a4 0 k) x
  have hlabel : ∀ am an bm bn, am < 2 ^ n → an < n.factorial → bm < 2 ^ n → bn < n.factorial →
      ∃ pn, t.getLabelFromElement (idCode n (am, an) (bm, bn) : Int) = some ((C am an).get bm, pn) := by
    intro am an bm bn h1 h2 h3 h4
    obtain ⟨pm, pn, _, _, e, _, _, a, c, _, _, f1, f2, _, _, f5, _⟩ := t6 am an bm bn h1 h2 h3 h4
    rw [a1] at f1
    cases f1
    rw [a4] at f2
    cases f2
    exact ⟨pn, by rw [e, f5]⟩
  let M : Nat → List (List Nat) := fun k => (List.range (2 ^ n)).map fun m => (List.range (2 ^ n)).map (C m k).get
  have hsign : ∀ an bn, an < n.factorial → bn < n.factorial → signCayley n t an bn = .ok (M an) := by
    intro an bn h1 h2
    unfold signCayley
    refine mapM_ok fun am ham => mapM_ok fun bm hbm => ?_
    obtain ⟨pn, e⟩ := hlabel am an bm bn (List.mem_range.1 ham) h1 (List.mem_range.1 hbm) h2
    rw [e]
  have hM : ∀ k l, k < n.factorial → l < n.factorial → M k = M l → k = l := by
    intro k l hk hl e
    refine hP.inj k l hk hl (cvp_inj (n := n) (hP.con k hk) (hP.con l hl) (hP.fin k hk) (hP.fin l hl) (hP.len k hk) (hP.len l hl) (a2 0 k) (a2 0 l) (hval 0 k hk)
      (hval 0 l hl) (a4 0 k) (a4 0 l) ?_)
    intro x hx
    have h0 := congrArg (fun r => r[0]?) e
    simp only [M, List.getElem?_map, List.getElem?_range (show 0 < 2 ^ n by positivity), Option.map_some, Option.some.injEq] at h0
    have h1 := congrArg (fun r => r[x]?) h0
    simpa only [List.getElem?_map, List.getElem?_range hx, Option.map_some, Option.some.injEq] using h1
  have hmem : ∀ (x : Int) l, (x, l) ∈ (pairs (List.range n.factorial)).map (fun ab => ((pairCode n ab.1 ab.2 : Int), M ab.1)) ↔
      ∃ a b, a < n.factorial ∧ b < n.factorial ∧ x = ((a * n.factorial + b : Nat) : Int) ∧ l = M a := by
    intro x l
    simp only [List.mem_map, mem_pairs, List.mem_range, Prod.mk.injEq, Prod.exists, pairCode]
    constructor
    · rintro ⟨a, b, ⟨h1, h2⟩, rfl, rfl⟩; exact ⟨a, b, h1, h2, rfl, rfl⟩
    · rintro ⟨a, b, h1, h2, rfl, rfl⟩; exact ⟨a, b, ⟨h1, h2⟩, rfl, rfl⟩
  obtain ⟨p, hp, _⟩ := (C37_construction (L := List (List Nat)) [] (.finite ((pairs (List.range n.factorial)).map fun ab => (pairCode n ab.1 ab.2 : Int)))).1 (by
    simp [noOverlap_iff])
  obtain ⟨q, z1, z2, _, _, z5, z6, _⟩ := C44_label_all _ ((pairs (List.range n.factorial)).map fun ab => ((pairCode n ab.1 ab.2 : Int), M ab.1)) (by
    intro x l h
    obtain ⟨ab, h1, h2⟩ := List.mem_map.1 h
    cases h2
    exact List.mem_map.2 ⟨ab, h1, rfl⟩) (by
    rw [List.map_map]
    refine List.Nodup.map_on ?_ (pairs_nodup List.nodup_range)
    rintro ⟨a, b⟩ h1 ⟨a', b'⟩ h2 e
    rw [mem_pairs, List.mem_range, List.mem_range] at h1 h2
    obtain ⟨e1, e2⟩ := pairCode_inj h1.2 h2.2 (by simp only [Function.comp, pairCode] at e; exact_mod_cast e)
    simp only at e1 e2
    rw [e1, e2]) p hp
  have hmoved : movedLoop n t (pairs (List.range n.factorial)) p = .ok q := by
    refine movedLoop_ok (M := M) _ p q ?_ z1
    rintro ⟨a, b⟩ hab
    rw [mem_pairs, List.mem_range, List.mem_range] at hab
    exact hsign a b hab.1 hab.2
  have hrun : rowToMatrix n = rowLoop n q q.blocks [] := by
    unfold rowToMatrix
    rw [t1]
    simp only [bind, Except.bind]
    rw [hp]
    simp only
    rw [hmoved]
  have hjoin : ∀ x y, x ≠ y → (Joined q.blocks x y ↔ ∃ k < n.factorial, x ∈ rowOf n.factorial k ∧ y ∈ rowOf n.factorial k) := by
    intro x y hxy
    rw [← z2.pairInSameBlock, z5 x y hxy]
    simp only [hmem, mem_rowOf]
    constructor
    · rintro ⟨l, ⟨a, b, h1, h2, rfl, rfl⟩, a', b', h3, h4, rfl, e⟩
      have := hM a a' h1 h3 e
      subst this
      exact ⟨a, h1, ⟨b, h2, rfl⟩, b', h4, rfl⟩
    · rintro ⟨k, h1, ⟨b, h2, rfl⟩, b', h4, rfl⟩
      exact ⟨M k, ⟨k, b, h1, h2, rfl, rfl⟩, k, b', h1, h4, rfl, rfl⟩
  constructor
  · intro hn
    have hN : 2 ≤ n.factorial := Nat.le_trans hn (Nat.self_le_factorial n)
    have hblocks : q.blocks = (List.range n.factorial).map (rowOf n.factorial) := by
      refine Canon.ext z2.canon (rows_canon hN) ?_
      intro x y hxy
      rw [hjoin x y hxy]
      simp [Joined]
    refine ⟨M, ?_, ?_, fun k hk l hl => hM k l hk hl⟩
    · rw [hrun, hblocks]
      refine rowLoop_ok (M := M) (List.range n.factorial) [] List.nodup_range ?_
      intro k hk
      have hk' := List.mem_range.1 hk
      have hin : ((k * n.factorial + 0 : Nat) : Int) ∈ rowOf n.factorial k := mem_rowOf.2 ⟨0, by omega, rfl⟩
      have := (z6 ((k * n.factorial + 0 : Nat) : Int) (M k)).2 ((hmem _ _).2 ⟨k, 0, hk', by omega, rfl, rfl⟩)
      unfold SetPart.getLabelFromElement at this
      rw [z2.elementToBlock_of_mem (B := rowOf n.factorial k) (by rw [hblocks]; exact List.mem_map_of_mem hk) hin] at this
      exact this
    · intro k hk
      refine ⟨A 0 k, C 0 k, a1 0 k, a4 0 k, by simp [M], fun m hm => ⟨A m k, C m k, a1 m k, a4 m k, ?_, ?_⟩⟩
      · simp [M, hm]
      · simp only [M, List.getElem?_map, List.getElem?_range hm, Option.map_some, Option.some.injEq]
        exact List.map_congr_left fun x _ => hxor m k x hk
  · intro hn
    have hN : n.factorial = 1 := by
      match n, hn with
      | 0, _ => rfl
      | 1, _ => rfl
    have hblocks : q.blocks = [] := by
      refine Canon.ext z2.canon ⟨List.Pairwise.nil, by simp, by simp, by simp⟩ ?_
      intro x y hxy
      rw [hjoin x y hxy]
      simp only [Joined, List.not_mem_nil, false_and, exists_false, iff_false]
      rintro ⟨k, h1, h2, h3⟩
      rw [mem_rowOf] at h2 h3
      obtain ⟨b, hb, rfl⟩ := h2
      obtain ⟨b', hb', rfl⟩ := h3
      apply hxy
      have : b = b' := by omega
      rw [this]
    rw [hrun, hblocks]
    rfl

example : (rowToMatrix 2) = .ok [(0, [[0, 1, 2, 3], [1, 0, 3, 2], [2, 3, 0, 1], [3, 2, 1, 0]]), (1, [[0, 2, 1, 3], [1, 3, 0, 2], [2, 0, 3, 1], [3, 1, 2, 0]])] := by
  decide +kernel
example : (rowToMatrix 1) = .ok [] := by decide +kernel

end Verif.Cay
