import Verif.Scripts.CayleyProps

/-!
# C168: the Cayley tables of the signed permutations
-/

namespace Verif.Cay
open Verif.Py Verif.BV Verif.P Verif.SP Verif.SG
open Verif.A hiding Mat

theorem mem_idList {n : Nat} {x : Nat × Nat} : x ∈ idList n ↔ x.1 < 2 ^ n ∧ x.2 < n.factorial := by
  obtain ⟨a, b⟩ := x
  simp [idList]

theorem idList_nodup (n : Nat) : (idList n).Nodup := by
  unfold idList
  rw [List.nodup_flatMap]
  refine ⟨fun a _ => List.nodup_range.map (fun _ _ e => (Prod.mk.inj e).2), ?_⟩
  refine List.nodup_range.imp ?_
  intro a b hab
  simp only [Function.onFun, List.disjoint_left, List.mem_map, not_exists, not_and]
  rintro x ⟨c, _, rfl⟩ d _ e
  exact hab (Prod.mk.inj e).1.symm

theorem idList_length (n : Nat) : (idList n).length = 2 ^ n * n.factorial := by
  simp [idList, List.length_flatMap]

theorem idCode_inj {n : Nat} : ∀ a ∈ idList n, ∀ b ∈ idList n, ∀ a' ∈ idList n, ∀ b' ∈ idList n, idCode n a b = idCode n a' b' → a = a' ∧ b = b' := by
  rintro ⟨am, ak⟩ ha ⟨bm, bk⟩ hb ⟨am', ak'⟩ ha' ⟨bm', bk'⟩ hb' e
  rw [mem_idList] at ha hb ha' hb'
  have key : ∀ m k, m < 2 ^ n → k < n.factorial → m * n.factorial + k < 2 ^ n * n.factorial := by
    intro m k hm hk
    calc m * n.factorial + k < m * n.factorial + n.factorial := by omega
      _ = (m + 1) * n.factorial := by ring
      _ ≤ 2 ^ n * n.factorial := Nat.mul_le_mul_right _ hm
  obtain ⟨e1, e2⟩ := pairCode_inj (key bm bk hb.1 hb.2) (key bm' bk' hb'.1 hb'.2) e
  obtain ⟨f1, f2⟩ := pairCode_inj ha.2 ha'.2 e1
  obtain ⟨g1, g2⟩ := pairCode_inj hb.2 hb'.2 e2
  simp only at f1 f2 g1 g2
  subst f1 f2 g1 g2
  exact ⟨rfl, rfl⟩

theorem mem_exposet_bit (c : Binv) (i : Nat) : i ∈ c.exposet ↔ c.intval.testBit i = true := by
  rw [← (C26_attributes c).2.2.2.1 i]
  unfold Binv.hasIndex
  rw [List.contains_iff_mem]

/-- the values of the signed permutation with sign pattern `m` and permutation `p` -/
def signedValue (m : Nat) (p : Perm) (i : Nat) : Int := if m.testBit (p.get i) then inv (p.get i) else p.get i

theorem nabs_signedValue (m : Nat) (p : Perm) (i : Nat) : nabs (signedValue m p i) = p.get i := by
  unfold signedValue
  split
  · rw [nabs_inv, nabs_nat]
  · rw [nabs_nat]

theorem signedValue_neg (m : Nat) (p : Perm) (i : Nat) : decide (signedValue m p i < 0) = m.testBit (p.get i) := by
  unfold signedValue
  split
  · rename_i h
    rw [h, decide_eq_true_eq, inv_neg]
    omega
  · rename_i h
    rw [Bool.not_eq_true] at h
    rw [h, decide_eq_false_iff_not]
    omega

/-- Signed permutations made of a sign pattern and a permutation. -/
theorem sig_spec {m : Nat} {b : Binv} {p : Perm} (hb : BV.mk { intval := some (m : Int) } = .ok b) (hp : Constructed p) (hf : p.perilen = none) :
    ∃ s, new { valneg := some (.binv b), perm := some (.perm p) } = .ok s ∧ Finite s ∧ SG.WF s ∧ SG.Canon s ∧ s.val = signedValue m p := by
  obtain ⟨s, s1, s2, s3, s4, s5⟩ := build_spec hp hf b
  have hi : b.intval = m := by
    obtain ⟨c, c1, c2, _⟩ := C26_intval_only m
    rw [show BV.mk { intval := some (m : Int) } = .ok c from c1] at hb
    cases hb
    exact c2
  refine ⟨s, s1, ⟨⟨{ valneg := some (.binv b), perm := some (.perm p) }, ?_, s1⟩, s2.finite⟩, s2, ?_, ?_⟩
  · rintro q hq; cases hq; exact hp
  · rw [s5]
    refine Nat.le_trans (intval_binv_length hb) ((requiredLength_le _ _).2 ?_)
    intro i hi
    exact s2.exposet_lt ((s4 i).2 hi)
  · funext i
    unfold SigPerm.val signedValue
    rw [s3]
    have : p.get i ∈ s.binv.exposet ↔ m.testBit (p.get i) = true := by rw [s4, mem_exposet_bit, hi]
    by_cases h : m.testBit (p.get i) = true
    · rw [if_pos (this.2 h), if_pos h]
    · rw [if_neg (fun h' => h (this.1 h')), if_neg h]

/-- Signed permutations made of a pair of indices. -/
theorem pair_spec (m k : Nat) : ∃ s p, new { pair := some (m, k) } = .ok s ∧ intToPerm k = .ok p ∧ Constructed p ∧ p.perilen = none ∧
    Finite s ∧ SG.WF s ∧ SG.Canon s ∧ s.val = signedValue m p := by
  obtain ⟨p, p1, p2, p3, p4⟩ := C15_rank_of_int k
  obtain ⟨b, b1, _⟩ := C26_intval_only m
  obtain ⟨s, s1, s2, s3, s4, s5⟩ := sig_spec b1 p2 p3
  refine ⟨s, p, ?_, p1, p2, p3, s2, s3, s4, s5⟩
  rw [← s1]
  simp [new, convNeg, convPerm, usePair, useNegIndex, usePermIndex, buildValneg, bind, Except.bind, Except.map, show BV.mk { intval := some (m : Int) } = .ok b from b1, p1]

/-- What the keys of the scripts stand for. -/
structure Sigs (n : Nat) (P : Nat → Perm) (B : List Binv) (S : Nat × Nat → SigPerm) : Prop where
  binvs : binvList n = .ok B
  make : ∀ k ∈ idList n, sigOf B ((List.range n.factorial).map P) k = .ok (S k)
  fin : ∀ k ∈ idList n, Finite (S k)
  wf : ∀ k ∈ idList n, SG.WF (S k)
  canon : ∀ k ∈ idList n, SG.Canon (S k)
  len : ∀ k ∈ idList n, (S k).length ≤ n
  val : ∀ k ∈ idList n, (S k).val = signedValue k.1 (P k.2)

theorem exists_sigs {n : Nat} {P : Nat → Perm} (hP : Listed n P) : ∃ B S, Sigs n P B S := by
  have hb : ∀ m : Nat, ∃ b, BV.mk { intval := some (m : Int) } = .ok b := fun m => by
    obtain ⟨b, b1, _⟩ := C26_intval_only m
    exact ⟨b, b1⟩
  choose F f1 using hb
  have hs : ∀ k, k ∈ idList n → ∃ s, new { valneg := some (.binv (F k.1)), perm := some (.perm (P k.2)) } = .ok s ∧ Finite s ∧ SG.WF s ∧ SG.Canon s ∧
      s.val = signedValue k.1 (P k.2) := by
    intro k hk
    rw [mem_idList] at hk
    exact sig_spec (f1 k.1) (hP.con _ hk.2) (hP.fin _ hk.2)
  have : Nonempty SigPerm := by
    obtain ⟨s, _⟩ := pair_spec 0 0
    exact ⟨s⟩
  choose! S s1 s2 s3 s4 s5 using hs
  refine ⟨(List.range (2 ^ n)).map F, S, ?_, ?_, s2, s3, s4, ?_, s5⟩
  · unfold binvList
    exact mapM_ok fun m _ => f1 m
  · intro k hk
    have hk' := mem_idList.1 hk
    have := s1 k hk
    simp [sigOf, item, hk'.1, hk'.2, bind, Except.bind, this]
  · intro k hk
    rw [(s3 k hk).length_le, s5 k hk]
    intro i hi
    rw [mem_idList] at hk
    unfold signedValue
    rw [(hP.con _ hk.2).wf.finite_bounded (hP.fin _ hk.2) (by have := hP.len _ hk.2; omega),
      if_neg (by rw [Nat.testBit_lt_two_pow (Nat.lt_of_lt_of_le hk.1 (Nat.pow_le_pow_right (by omega) hi))]; simp)]

variable {n : Nat} {P : Nat → Perm} {B : List Binv} {S : Nat × Nat → SigPerm}

theorem signedValue_inj {m m' : Nat} {p q : Perm} (hp : Constructed p) (h : signedValue m p = signedValue m' q) : m = m' ∧ ∀ i, p.get i = q.get i := by
  have hg : ∀ i, p.get i = q.get i := fun i => by rw [← nabs_signedValue m p, ← nabs_signedValue m' q, h]
  refine ⟨?_, hg⟩
  apply Nat.eq_of_testBit_eq
  intro j
  obtain ⟨i, rfl⟩ := hp.wf.get_bijective.2 j
  rw [← signedValue_neg, h, signedValue_neg, hg]

theorem Sigs.inj (hS : Sigs n P B S) (hP : Listed n P) {a b : Nat × Nat} (ha : a ∈ idList n) (hb : b ∈ idList n) (h : (S a).val = (S b).val) : a = b := by
  rw [hS.val a ha, hS.val b hb] at h
  rw [mem_idList] at ha hb
  obtain ⟨h1, h2⟩ := signedValue_inj (hP.con _ ha.2) h
  exact Prod.ext h1 (hP.inj _ _ ha.2 hb.2 h2)

/-- Every signed permutation of the places below `n` has an index. -/
theorem Sigs.sur (hS : Sigs n P B S) (hP : Listed n P) {u : SigPerm} (hu : SG.WF u) (hl : u.length ≤ n) : ∃ c ∈ idList n, (S c).val = u.val := by
  have hpl : u.perm.length ≤ n := Nat.le_trans (by rw [hu.length]; exact Nat.le_max_right _ _) hl
  obtain ⟨k, k1, k2⟩ := hP.sur u.perm hu.constructed hu.finite hpl
  have hm : u.binv.intval < 2 ^ n := by
    apply Nat.lt_pow_two_of_testBit
    intro i hi
    rw [Bool.eq_false_iff]
    intro h
    have := hu.exposet_lt ((mem_exposet_bit _ _).2 h)
    omega
  have hc : (u.binv.intval, k) ∈ idList n := mem_idList.2 ⟨hm, k1⟩
  refine ⟨_, hc, ?_⟩
  rw [hS.val _ hc]
  funext i
  unfold SigPerm.val signedValue
  simp only [k2]
  by_cases h : u.binv.intval.testBit (u.perm.get i) = true
  · rw [if_pos h, if_pos ((mem_exposet_bit _ _).2 h)]
  · rw [if_neg h, if_neg (fun h' => h ((mem_exposet_bit _ _).1 h'))]

/-- the key of a product -/
theorem Sigs.product (hS : Sigs n P B S) (hP : Listed n P) {a b : Nat × Nat} (ha : a ∈ idList n) (hb : b ∈ idList n) :
    ∃ c, c ∈ idList n ∧ (S c).val = fun i => ext (S a).val ((S b).val i) := by
  obtain ⟨u, _, u2, _, _, u5⟩ := SG.mul_spec (hS.wf a ha) (hS.wf b hb)
  obtain ⟨c, c1, c2⟩ := hS.sur hP u2 (by
    rw [u2.length_le, u5]
    intro i hi
    simp only
    rw [(hS.wf b hb).signed.fix i (by have := hS.len b hb; omega), ext_nat, (hS.wf a ha).signed.fix i (by have := hS.len a ha; omega)])
  exact ⟨c, c1, by rw [c2, u5]⟩

theorem sameSig_iff {s u : SigPerm} (hs : Finite s) (hu : Finite u) (cs : SG.Canon s) (cu : SG.Canon u) : sameSig s u = true ↔ s.val = u.val := by
  obtain ⟨x, y, x1, y1, e⟩ := C62_str s u hs hu
  unfold sameSig
  rw [x1, y1]
  simp only [Bool.and_eq_true, decide_eq_true_eq]
  rw [SG.eq_iff hs.wf hu.wf cs cu, e, value_eq_val hs, value_eq_val hu]
  constructor
  · exact fun h => h.2
  · exact fun h => ⟨fun i => by rw [h], h⟩

theorem samePerm_iff {p q : Perm} (hp : Constructed p) (hq : Constructed q) : samePerm p q = true ↔ ∀ i, p.get i = q.get i := by
  obtain ⟨x, y, x1, y1, e⟩ := C13_str p q hp hq
  unfold samePerm
  rw [x1, y1]
  simp only [Bool.and_eq_true, decide_eq_true_eq]
  rw [e, and_self, C05_eq_extensional p q hp hq]

/-! ### matrices -/

/-- the rows of the matrix of a signed permutation -/
def matRows (n : Nat) (f : Nat → Int) : List (List Int) := (List.range n).map fun i => (List.range n).map (matEntry f i)

theorem tuples_eq {n : Nat} {f : Nat → Int} {m : SG.Mat} (h1 : m.rows = n) (h2 : m.cols = n) (h : ∀ i j, i < n → j < n → m.get i j = matEntry f i j) :
    tuples m = matRows n f := by
  unfold tuples matRows
  rw [h1, h2]
  apply List.map_congr_left
  intro i hi
  apply List.map_congr_left
  intro j hj
  exact h i j (List.mem_range.1 hi) (List.mem_range.1 hj)

theorem array_get {n : Nat} {f : Nat → Int} {i j : Nat} (hi : i < n) (hj : j < n) : (array n (matRows n f)).get i j = matEntry f i j := by
  simp [array, matRows, hi, hj]

theorem tuples_dot {n : Nat} {f g : Nat → Int} (hg : Signed g n) : tuples ((array n (matRows n f)).dot (array n (matRows n g))) = matRows n (fun i => ext f (g i)) := by
  refine tuples_eq rfl rfl fun i j hi hj => ?_
  rw [← matEntry_comp hg hj]
  show ((List.range n).map (fun k => (array n (matRows n f)).get i k * (array n (matRows n g)).get k j)).sum = _
  congr 1
  apply List.map_congr_left
  intro k hk
  rw [List.mem_range] at hk
  rw [array_get hi hk, array_get hk hj]

theorem matRows_inj {n : Nat} {f g : Nat → Int} (hf : Signed f n) (hg : Signed g n) : matRows n f = matRows n g ↔ f = g := by
  refine ⟨fun h => ?_, fun h => by rw [h]⟩
  have he : ∀ i j, i < n → j < n → matEntry f i j = matEntry g i j := by
    intro i j hi hj
    rw [← array_get hi hj, ← array_get hi hj, h]
  funext j
  by_cases hj : j < n
  · have := he (nabs (f j)) j (hf.lt j hj) hj
    unfold matEntry at this
    rw [if_pos rfl] at this
    by_cases e : nabs (g j) = nabs (f j)
    · rw [if_pos e] at this
      rcases nabs_cases (f j) with ⟨h1, h2⟩ | ⟨h1, h2⟩ <;> rcases nabs_cases (g j) with ⟨h3, h4⟩ | ⟨h3, h4⟩
      · rw [h2, h4, e]
      · rw [if_neg (by omega), if_pos h3] at this; omega
      · rw [if_pos h1, if_neg (by omega)] at this; omega
      · rw [h2, h4, e]
    · rw [if_neg e] at this
      split at this <;> omega
  · rw [hf.fix j (by omega), hg.fix j (by omega)]

/-! ### the tables -/

theorem Sigs.tables (hS : Sigs n P B S) (hP : Listed n P) :
    ∃ op t, (∀ a ∈ idList n, ∀ b ∈ idList n, op a b ∈ idList n ∧ (S (op a b)).val = fun i => ext (S a).val ((S b).val i)) ∧
      IsTable (idCode n) (idList n) op t ∧ sigTable n = .ok t ∧ matTable n = .ok t ∧ cvpTable n = .ok t := by
  have hprod : ∀ a b, a ∈ idList n → b ∈ idList n → ∃ c, c ∈ idList n ∧ (S c).val = fun i => ext (S a).val ((S b).val i) :=
    fun a b ha hb => hS.product hP ha hb
  choose! op o1 o2 using hprod
  obtain ⟨p, t, t1, t2, t3⟩ := exists_table (idCode n) (idList n) op (idList_nodup n) idCode_inj
  have hval : ∀ a ∈ idList n, ∀ b ∈ idList n, ∀ k ∈ idList n, (S k).val = (fun i => ext (S a).val ((S b).val i)) ↔ k = op a b := by
    intro a ha b hb k hk
    rw [← o2 a b ha hb]
    exact ⟨hS.inj hP hk (o1 a b ha hb), fun h => by rw [h]⟩
  refine ⟨op, t, fun a ha b hb => ⟨o1 a b ha hb, o2 a b ha hb⟩, t3, ?_, ?_, ?_⟩
  · obtain ⟨h1, h2⟩ := bidict_table (same := sameSig) (make := sigOf B ((List.range n.factorial).map P)) (v := S) (product := SigPerm.mul) (idList_nodup n) hS.make
      (fun k hk k' hk' e => hS.inj hP hk hk' ((sameSig_iff (hS.fin k hk) (hS.fin k' hk') (hS.canon k hk) (hS.canon k' hk')).1 e))
      (fun a ha b hb => by
        obtain ⟨u, u1, u2, u3, u4, u5⟩ := SG.mul_spec (hS.wf a ha) (hS.wf b hb)
        refine ⟨o1 a b ha hb, u, u1, fun k hk => ?_⟩
        rw [sameSig_iff (hS.fin k hk) u4 (hS.canon k hk) u3, u5, hval a ha b hb k hk]) t1 t2
    unfold sigTable
    rw [hP.list, hS.binvs]
    simp only [bind, Except.bind]
    rw [h1]
    exact h2
  · obtain ⟨h1, h2⟩ := bidict_table (same := fun s t => decide (s = t))
      (make := fun id => do return tuples (← (← sigOf B ((List.range n.factorial).map P) id).matrix (some n))) (v := fun k => matRows n (S k).val)
      (product := fun a b => .ok (tuples ((array n a).dot (array n b)))) (idList_nodup n) (fun k hk => by
        obtain ⟨m, m1, m2, m3, m4⟩ := matrix_spec (hS.wf k hk) (hS.len k hk)
        simp only [hS.make k hk, m1, bind, Except.bind, pure, Except.pure]
        rw [tuples_eq m2 m3 m4])
      (fun k hk k' hk' e => by
        rw [decide_eq_true_eq, matRows_inj ((hS.wf k hk).signed.mono (hS.len k hk)) ((hS.wf k' hk').signed.mono (hS.len k' hk'))] at e
        exact hS.inj hP hk hk' e)
      (fun a ha b hb => by
        refine ⟨o1 a b ha hb, _, rfl, fun k hk => ?_⟩
        have hb' := (hS.wf b hb).signed.mono (hS.len b hb)
        have ha' := (hS.wf a ha).signed.mono (hS.len a ha)
        rw [tuples_dot hb', decide_eq_true_eq, matRows_inj ((hS.wf k hk).signed.mono (hS.len k hk)) (ha'.comp hb'), hval a ha b hb k hk]) t1 t2
    unfold matTable
    rw [hP.list, hS.binvs]
    simp only [bind, Except.bind] at h1 ⊢
    rw [h1]
    exact h2
  · have hq : ∀ k, k ∈ idList n → ∃ q, (S k).schoutePerm = .ok q ∧ Constructed q := by
      intro k hk
      obtain ⟨q, q1, q2, _⟩ := C135_signed (S k) (hS.fin k hk)
      exact ⟨q, q1, q2⟩
    have : Nonempty Perm := ⟨⟨true, [], none, 0⟩⟩
    choose! Q q1 q2 using hq
    have hQ : ∀ k, k ∈ idList n → ∀ u, SG.Finite u → ∀ w, u.schoutePerm = .ok w → Constructed w → ((∀ i, (Q k).get i = w.get i) ↔ (S k).val = u.val) := by
      intro k hk u hu w hw hwc
      rw [← C05_eq_extensional _ _ (q2 k hk) hwc, C135_injective (S k) u (hS.fin k hk) hu _ _ (q1 k hk) hw, value_eq_val (hS.fin k hk), value_eq_val hu, funext_iff]
    obtain ⟨h1, h2⟩ := bidict_table (same := samePerm)
      (make := fun id => do (← sigOf B ((List.range n.factorial).map P) id).schoutePerm) (v := Q) (product := Perm.mul) (idList_nodup n)
      (fun k hk => by
        simp only [hS.make k hk, bind, Except.bind]
        exact q1 k hk)
      (fun k hk k' hk' e => by
        rw [samePerm_iff (q2 k hk) (q2 k' hk'), hQ k hk _ (hS.fin k' hk') _ (q1 k' hk') (q2 k' hk')] at e
        exact hS.inj hP hk hk' e)
      (fun a ha b hb => by
        obtain ⟨st, x, y, z, w, e1, e2, e3, e4, e5, e6⟩ := C135_product (S a) (S b) (hS.fin a ha) (hS.fin b hb)
        obtain ⟨u, u1, u2, u3, u4, u5⟩ := SG.mul_spec (hS.wf a ha) (hS.wf b hb)
        rw [u1] at e1; injection e1 with e1; subst e1
        rw [q1 a ha] at e3; cases e3
        rw [q1 b hb] at e4; cases e4
        obtain ⟨z', z1, z2, _⟩ := C135_signed u u4
        rw [z1] at e2; cases e2
        refine ⟨o1 a b ha hb, w, e5, fun k hk => ?_⟩
        have hw : Constructed w := by
          by_cases hk : SameKind (Q a) (Q b)
          · obtain ⟨c, c1, c2, _⟩ := (C06_mul (Q a) (Q b) (q2 a ha) (q2 b hb)).1 hk
            rw [c1] at e5; cases e5
            exact c2
          · rw [(C06_mul (Q a) (Q b) (q2 a ha) (q2 b hb)).2 hk] at e5
            cases e5
        rw [C05_eq_extensional _ _ z2 hw] at e6
        rw [samePerm_iff (q2 k hk) hw, ← hval a ha b hb k hk, ← u5, ← hQ k hk u u4 _ z1 z2]
        simp only [e6]) t1 t2
    unfold cvpTable
    rw [hP.list, hS.binvs]
    simp only [bind, Except.bind] at h1 ⊢
    rw [h1]
    exact h2

/-- The sign part of a product. -/
theorem sign_part {m' k : Nat} {q r : Perm} {s : SigPerm} (hs : SG.WF s) {c : Perm} (hc : s.schoutePerm = .ok c) {f : Nat → Int}
    (hf : f = signedValue k r) (hr : Constructed r) (h : f = fun i => ext s.val (signedValue m' q i)) : k = c.get m' := by
  obtain ⟨c', c1, c2, _, _, c5⟩ := schoute_spec hs
  rw [hc] at c1
  cases c1
  apply Nat.eq_of_testBit_eq
  intro j
  obtain ⟨i, rfl⟩ := hr.wf.get_bijective.2 j
  have h1 : r.get i = nabs (s.val (q.get i)) := by
    rw [← nabs_signedValue k r, ← hf, h]
    simp only
    rw [nabs_ext, nabs_signedValue]
  have h2 := signedValue_neg k r i
  rw [← h2, h1, c5, ← signedValue_neg m' q, ← hf, h]
  simp only [ext_neg, nabs_signedValue]
  by_cases x : signedValue m' q i < 0 <;> by_cases y : s.val (q.get i) < 0 <;> simp [x, y]

theorem sign_part_xor {m : Nat} {p : Perm} (hp : Constructed p) {s s0 : SigPerm} (hs : SG.WF s) (hs0 : SG.WF s0) (hv : s.val = signedValue m p)
    (hv0 : s0.val = signedValue 0 p) {c c0 : Perm} (hc : s.schoutePerm = .ok c) (hc0 : s0.schoutePerm = .ok c0) (x : Nat) : c.get x = m ^^^ c0.get x := by
  obtain ⟨c', c1, _, _, _, c5⟩ := schoute_spec hs
  rw [hc] at c1
  cases c1
  obtain ⟨c', d1, _, _, _, d5⟩ := schoute_spec hs0
  rw [hc0] at d1
  cases d1
  apply Nat.eq_of_testBit_eq
  intro j
  obtain ⟨i, rfl⟩ := hp.wf.get_bijective.2 j
  have h1 := c5 x i
  have h2 := d5 x i
  rw [hv] at h1
  rw [hv0] at h2
  rw [nabs_signedValue, signedValue_neg] at h1 h2
  rw [Nat.testBit_xor, h1, h2, Nat.zero_testBit]
  cases x.testBit i <;> cases m.testBit (p.get i) <;> rfl

theorem ext_injective {s : SigPerm} (hs : SG.WF s) {x y : Int} (h : ext s.val x = ext s.val y) : x = y := by
  obtain ⟨u, _, _, _, _, u5, _⟩ := SG.inverse_spec hs
  have key : ∀ z, ext u.val (ext s.val z) = z := by
    intro z
    rw [← ext_comp, show (fun i => ext u.val (s.val i)) = fun i : Nat => (i : Int) from funext u5, ext_id]
  rw [← key x, ← key y, h]

theorem ext_cancel {f g : Nat → Int} {s : SigPerm} (hs : SG.WF s) (h : ∀ i, ext f (s.val i) = ext g (s.val i)) : f = g := by
  obtain ⟨u, _, _, _, _, _, u6⟩ := SG.inverse_spec hs
  have key : ∀ z, ext f (ext s.val z) = ext g (ext s.val z) := by
    intro z
    rw [← ext_comp, ← ext_comp, show (fun i => ext f (s.val i)) = fun i => ext g (s.val i) from funext h]
  funext j
  have := key (u.val j)
  rw [u6 j, SG.ext_nat, SG.ext_nat] at this
  exact this

theorem signedValue_congr {m : Nat} {p q : Perm} (h : ∀ i, p.get i = q.get i) : signedValue m p = signedValue m q := by
  funext i
  unfold signedValue
  rw [h]

/-- **C168.** The Cayley table of the signed permutations of `n` places.  No exception is raised, and the tables built from the signed permutations, from their
matrices and from their cube vertex permutations (`schoute_perm`) are the same.  The label of `((am, an), (bm, bn))` is the pair `(pm, pn)` of the product; here
`pn` is the index of the product of the permutations, and `pm = cvp(am, an)[bm] = am ^ cvp(0, an)[bm]`.  The block of each label contains exactly one pair
from each row and from each column. -/
theorem C168_signed (n : Nat) :
    ∃ t, sigTable n = .ok t ∧ cvpTable n = .ok t ∧ (0 < n → matTable n = .ok t) ∧ SP.WF t ∧
      t.domain = .finite ((pairs (idList n)).map fun ab => (idCode n ab.1 ab.2 : Int)) ∧
      (∀ am an bm bn, am < 2 ^ n → an < n.factorial → bm < 2 ^ n → bn < n.factorial →
        ∃ pm pn, pm < 2 ^ n ∧ pn < n.factorial ∧ t.getLabelFromElement (idCode n (am, an) (bm, bn) : Int) = some (pm, pn) ∧
          (∃ a b ab r, new { pair := some (am, an) } = .ok a ∧ new { pair := some (bm, bn) } = .ok b ∧ a.mul b = .ok ab ∧
            new { pair := some (pm, pn) } = .ok r ∧ r.eq ab = true) ∧
          (∃ p q r, intToPerm an = .ok p ∧ intToPerm bn = .ok q ∧ intToPerm pn = .ok r ∧ ∀ i, r.get i = p.get (q.get i)) ∧
          ∃ a c a0 c0, new { pair := some (am, an) } = .ok a ∧ a.schoutePerm = .ok c ∧ new { pair := some (0, an) } = .ok a0 ∧ a0.schoutePerm = .ok c0 ∧
            pm = c.get bm ∧ pm = am ^^^ c0.get bm) ∧
      (∀ c ∈ idList n, ∃ B, t.getBlockFromLabel c = some B ∧ B.Pairwise (· < ·) ∧ B.length = 2 ^ n * n.factorial ∧
        (∀ a ∈ idList n, ∃ b ∈ idList n, (idCode n a b : Int) ∈ B ∧ ∀ b' ∈ idList n, (idCode n a b' : Int) ∈ B → b' = b) ∧
        (∀ b ∈ idList n, ∃ a ∈ idList n, (idCode n a b : Int) ∈ B ∧ ∀ a' ∈ idList n, (idCode n a' b : Int) ∈ B → a' = a)) := by
  obtain ⟨P, hP⟩ := exists_listed n
  obtain ⟨B, S, hS⟩ := exists_sigs hP
  obtain ⟨op, t, t1, t2, t3, t4, t5⟩ := hS.tables hP
  refine ⟨t, t3, t5, fun _ => t4, t2.wf, t2.domain, ?_, ?_⟩
  · intro am an bm bn ham han hbm hbn
    have ha : (am, an) ∈ idList n := mem_idList.2 ⟨ham, han⟩
    have hb : (bm, bn) ∈ idList n := mem_idList.2 ⟨hbm, hbn⟩
    obtain ⟨hc, hv⟩ := t1 _ ha _ hb
    obtain ⟨hc1, hc2⟩ := mem_idList.1 hc
    have link : ∀ m k : Nat, k < n.factorial → ∃ s p, new { pair := some (m, k) } = .ok s ∧ intToPerm k = .ok p ∧ Constructed p ∧ (∀ i, (P k).get i = p.get i) ∧
        Finite s ∧ SG.WF s ∧ SG.Canon s ∧ s.val = signedValue m (P k) := by
      intro m k hk
      obtain ⟨s, p, s1, p1, p2, _, s2, s3, s4, s5⟩ := pair_spec m k
      obtain ⟨q, q1, q2⟩ := hP.idx k hk
      rw [p1] at q1
      cases q1
      exact ⟨s, p, s1, p1, p2, q2, s2, s3, s4, by rw [s5, signedValue_congr q2]⟩
    obtain ⟨a, p, a1, p1, p2, p3, a2, a3, a4, a5⟩ := link am an han
    obtain ⟨b, q, b1, q1, q2, q3, b2, b3, b4, b5⟩ := link bm bn hbn
    obtain ⟨a0, _, z1, _, _, _, z2, z3, _, z5⟩ := link 0 an han
    obtain ⟨r, y, r1, y1, y2, y3, r2, r3, r4, r5⟩ := link (op (am, an) (bm, bn)).1 (op (am, an) (bm, bn)).2 hc2
    obtain ⟨ab, e1, e2, e3, e4, e5⟩ := SG.mul_spec a3 b3
    obtain ⟨c, c1, _⟩ := C135_signed a a2
    obtain ⟨c0, d1, _⟩ := C135_signed a0 z2
    have hva : (S (am, an)).val = a.val := by rw [hS.val _ ha, a5]
    have hvb : (S (bm, bn)).val = b.val := by rw [hS.val _ hb, b5]
    rw [hva, hvb] at hv
    have hvr : (S (op (am, an) (bm, bn))).val = r.val := by rw [hS.val _ hc, r5]
    rw [hvr] at hv
    have hpm : (op (am, an) (bm, bn)).1 = c.get bm := sign_part (q := P bn) a3 c1 r5 (hP.con _ hc2) (by rw [hv, b5])
    refine ⟨_, _, hc1, hc2, t2.label _ ha _ hb, ⟨a, b, ab, r, a1, b1, e1, r1, ?_⟩, ⟨p, q, y, p1, q1, y1, fun i => ?_⟩,
      a, c, a0, c0, a1, c1, z1, d1, hpm, ?_⟩
    · rw [SG.eq_iff r3 e2 r4 e3, e5, hv]
    · have := congrFun hv i
      have := congrArg nabs this
      rw [r5, nabs_signedValue, nabs_ext, a5, nabs_signedValue, b5, nabs_signedValue, y3, p3, q3] at this
      exact this
    · rw [hpm]
      exact sign_part_xor (hP.con _ han) a3 z3 a5 z5 c1 d1 bm
  · have hlat := t2.latin (idList_nodup n) idCode_inj (fun a ha b hb => (t1 a ha b hb).1) (by
      intro a ha b hb c hc e
      refine hS.inj hP hb hc (funext fun i => ext_injective (hS.wf a ha) ?_)
      have h1 := congrFun (t1 a ha b hb).2 i
      have h2 := congrFun (t1 a ha c hc).2 i
      rw [e] at h1
      rw [← h1, ← h2]) (by
      intro a ha b hb c hc e
      refine hS.inj hP ha hb (ext_cancel (hS.wf c hc) fun i => ?_)
      have h1 := congrFun (t1 a ha c hc).2 i
      have h2 := congrFun (t1 b hb c hc).2 i
      rw [e] at h1
      rw [← h1, ← h2])
    rw [idList_length] at hlat
    exact hlat

example : (sigTable 2).map (fun t => (t.getLabelFromElement (idCode 2 (1, 1) (2, 1) : Int), t.getLabelFromElement (idCode 2 (2, 1) (2, 0) : Int))) =
    .ok (some (0, 0), some (3, 1)) := by decide +kernel
example : (matTable 1).map (fun t => t.getLabelFromElement (idCode 1 (1, 0) (1, 0) : Int)) = .ok (some (0, 0)) := by decide +kernel
example : (cvpTable 1).map (fun t => t.getLabelFromElement (idCode 1 (1, 0) (1, 0) : Int)) = .ok (some (0, 0)) := by decide +kernel

end Verif.Cay
