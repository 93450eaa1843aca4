import Verif.Boolf.Model

/-! # Truth tables: removing an atom, deflation -/

namespace Verif.BF
open Verif.Py Verif.BV Verif.P Verif.W
open Verif.A hiding Mat

/-- the number whose binary digits are those of `j`, with `b` inserted at place `k` -/
def ins (k : Nat) (b : Bool) (j : Nat) : Nat := 2 ^ k * (2 * (j / 2 ^ k) + b.toNat) + j % 2 ^ k

theorem testBit_ins (k : Nat) (b : Bool) (j i : Nat) :
    (ins k b j).testBit i = if i < k then j.testBit i else if i = k then b else j.testBit (i - 1) := by
  unfold ins
  rw [Nat.testBit_two_pow_mul_add _ (Nat.mod_lt _ (Nat.two_pow_pos k))]
  by_cases h : i < k
  · rw [if_pos h, if_pos h, Nat.testBit_mod_two_pow]; simp [h]
  · rw [if_neg h, if_neg h]
    by_cases h2 : i = k
    · subst h2
      rw [if_pos rfl, Nat.sub_self, Nat.testBit_zero]
      cases b <;> simp
    · rw [if_neg h2]
      obtain ⟨m, rfl⟩ : ∃ m, i = k + m + 1 := ⟨i - k - 1, by omega⟩
      have e : k + m + 1 - k = m + 1 := by omega
      rw [e, Nat.testBit_succ]
      have e2 : (2 * (j / 2 ^ k) + b.toNat) / 2 = j / 2 ^ k := by cases b <;> simp <;> omega
      rw [e2, Nat.testBit_div_two_pow]
      congr 1; omega

theorem ins_lt {k n j : Nat} (hk : k ≤ n) (hj : j < 2 ^ n) (b : Bool) : ins k b j < 2 ^ (n + 1) := by
  apply Nat.lt_pow_two_of_testBit
  intro i hi
  rw [testBit_ins, if_neg (by omega), if_neg (by omega)]
  exact Nat.testBit_lt_two_pow (lt_of_lt_of_le hj (Nat.pow_le_pow_right (by omega) (by omega)))

/-- the number without the digit at place `k` -/
def del (k x : Nat) : Nat := 2 ^ k * (x / 2 ^ (k + 1)) + x % 2 ^ k

theorem testBit_del (k x i : Nat) : (del k x).testBit i = if i < k then x.testBit i else x.testBit (i + 1) := by
  unfold del
  rw [Nat.testBit_two_pow_mul_add _ (Nat.mod_lt _ (Nat.two_pow_pos k))]
  by_cases h : i < k
  · rw [if_pos h, if_pos h, Nat.testBit_mod_two_pow]; simp [h]
  · rw [if_neg h, if_neg h, Nat.testBit_div_two_pow]
    congr 1; omega

theorem del_lt {k n x : Nat} (hk : k ≤ n) (hx : x < 2 ^ (n + 1)) : del k x < 2 ^ n := by
  apply Nat.lt_pow_two_of_testBit
  intro i hi
  rw [testBit_del, if_neg (by omega)]
  exact Nat.testBit_lt_two_pow (lt_of_lt_of_le hx (Nat.pow_le_pow_right (by omega) (by omega)))

theorem ins_del (k x : Nat) : ins k (x.testBit k) (del k x) = x := by
  apply Nat.eq_of_testBit_eq
  intro i
  rw [testBit_ins]
  by_cases h : i < k
  · rw [if_pos h, testBit_del, if_pos h]
  · rw [if_neg h]
    by_cases h2 : i = k
    · rw [if_pos h2, h2]
    · rw [if_neg h2, testBit_del, if_neg (by omega)]; congr 1; omega

theorem del_ins (k : Nat) (b : Bool) (j : Nat) : del k (ins k b j) = j := by
  apply Nat.eq_of_testBit_eq
  intro i
  rw [testBit_del, testBit_ins, testBit_ins]
  by_cases h : i < k
  · rw [if_pos h, if_pos h]
  · rw [if_neg h, if_neg (by omega), if_neg (by omega)]; rfl

theorem ins_strictMono (k : Nat) (b : Bool) {i j : Nat} (h : i < j) : ins k b i < ins k b j := by
  unfold ins
  have h1 : i / 2 ^ k ≤ j / 2 ^ k := Nat.div_le_div_right h.le
  have hi := Nat.div_add_mod i (2 ^ k)
  have hj := Nat.div_add_mod j (2 ^ k)
  have p := Nat.two_pow_pos k
  have mi := Nat.mod_lt i p
  have mj := Nat.mod_lt j p
  rcases Nat.lt_or_ge (i / 2 ^ k) (j / 2 ^ k) with h2 | h2
  · have h3 : 2 ^ k * (2 * (i / 2 ^ k) + b.toNat + 1) ≤ 2 ^ k * (2 * (j / 2 ^ k) + b.toNat) := Nat.mul_le_mul_left _ (by omega)
    rw [Nat.mul_add _ _ 1] at h3
    omega
  · have e : i / 2 ^ k = j / 2 ^ k := by omega
    rw [e] at hi
    rw [e]
    omega

theorem filter_testBit {k n : Nat} (hk : k ≤ n) (b : Bool) :
    (List.range (2 ^ (n + 1))).filter (fun i => i.testBit k == b) = (List.range (2 ^ n)).map (ins k b) := by
  apply eq_of_mem_iff_of_lt
  · exact List.Pairwise.filter _ List.pairwise_lt_range
  · rw [List.pairwise_map]
    exact List.pairwise_lt_range.imp (fun h => ins_strictMono k b h)
  · intro x
    rw [List.mem_filter, List.mem_range, List.mem_map]
    constructor
    · rintro ⟨h1, h2⟩
      have h3 : x.testBit k = b := by simpa using h2
      exact ⟨del k x, List.mem_range.2 (del_lt hk h1), by rw [← h3, ins_del]⟩
    · rintro ⟨j, hj, rfl⟩
      refine ⟨ins_lt hk (List.mem_range.1 hj) b, ?_⟩
      rw [testBit_ins, if_neg (by omega), if_pos rfl]; simp

theorem part_map {α β : Type} (l : List β) (g : β → α) (f : β → Nat) (c : Nat) :
    part (l.map g) (l.map f) c = (l.filter fun i => f i == c).map g := by
  unfold part
  rw [List.zip_map']
  induction l with
  | nil => rfl
  | cons x l ih =>
    rw [List.map_cons, List.filterMap_cons, List.filter_cons]
    by_cases h : f x = c
    · simp [h, ih]
    · simp [h, ih]

theorem eq_map_getD {α : Type} (v : List α) (d : α) : v = (List.range v.length).map (fun i => v.getD i d) := by
  apply List.ext_getElem?
  intro i
  rw [List.getElem?_map]
  by_cases h : i < v.length
  · rw [List.getElem?_range h, List.getElem?_eq_getElem h]; simp [h]
  · rw [List.getElem?_eq_none (by omega), List.getElem?_eq_none (by simp; omega)]; rfl

/-- one half of a truth table: the entries where atom number `k` has the value `b` -/
def half (v : List Bool) (n k : Nat) (b : Bool) : List Bool := (List.range (2 ^ n)).map fun j => v.getD (ins k b j) false

theorem part_eq_half {v : List Bool} {n k : Nat} (hv : v.length = 2 ^ (n + 1)) (hk : k ≤ n) (b : Bool) :
    part v ((List.range (2 ^ (n + 1))).map fun i => (i.testBit k).toNat) b.toNat = half v n k b := by
  conv_lhs => rw [eq_map_getD v false]
  rw [hv, part_map]
  have : (fun i : Nat => (i.testBit k).toNat == b.toNat) = fun i : Nat => i.testBit k == b := by
    funext i; cases i.testBit k <;> cases b <;> rfl
  rw [this, filter_testBit hk, List.map_map]
  rfl

theorem maxInt_le {l : List Int} {m : Int} (h : ∀ x ∈ l, x ≤ m) (h0 : l ≠ []) : maxInt l ≤ m := by
  induction l with
  | nil => exact absurd rfl h0
  | cons x l ih =>
    cases l with
    | nil => simpa [maxInt] using h x
    | cons y l =>
      rw [maxInt]
      · exact max_le (h x (by simp)) (ih (fun z hz => h z (List.mem_cons_of_mem _ hz)) (by simp))
      · simp

theorem le_maxInt {l : List Int} {x : Int} (h : x ∈ l) : x ≤ maxInt l := by
  induction l with
  | nil => cases h
  | cons y l ih =>
    cases l with
    | nil => simp [maxInt] at h ⊢; omega
    | cons z l =>
      rw [maxInt]
      · rcases List.mem_cons.1 h with rfl | h
        · exact le_max_left _ _
        · exact le_trans (ih h) (le_max_right _ _)
      · simp

theorem zipApart_halves {v : List Bool} {n k : Nat} (hv : v.length = 2 ^ (n + 1)) (hk : k ≤ n) :
    vectorZipApart v ((atomB (n + 1) k).vector.map fun b => (b.toNat : Int)) = .ok [half v n k false, half v n k true] := by
  have e : (atomB (n + 1) k).vector.map (fun b => (b.toNat : Int)) =
      ((List.range (2 ^ (n + 1))).map fun i => (i.testBit k).toNat).map Int.ofNat := by
    unfold atomB; simp only [List.map_map]; rfl
  rw [e]
  have hpos := Nat.two_pow_pos (n + 1)
  have hmem : ∀ b : Bool, ((b.toNat : Nat) : Int) ∈ ((List.range (2 ^ (n + 1))).map fun i => (i.testBit k).toNat).map Int.ofNat := by
    intro b
    refine List.mem_map.2 ⟨b.toNat, List.mem_map.2 ⟨ins k b 0, List.mem_range.2 (ins_lt hk (Nat.two_pow_pos n) b), ?_⟩, rfl⟩
    rw [testBit_ins, if_neg (by omega), if_pos rfl]
  have hne : ((List.range (2 ^ (n + 1))).map fun i => (i.testBit k).toNat).map Int.ofNat ≠ [] := List.ne_nil_of_mem (hmem true)
  have hmax : maxInt (((List.range (2 ^ (n + 1))).map fun i => (i.testBit k).toNat).map Int.ofNat) = 1 := by
    apply le_antisymm
    · apply maxInt_le _ hne
      intro x hx
      obtain ⟨y, hy, rfl⟩ := List.mem_map.1 hx
      obtain ⟨i, _, rfl⟩ := List.mem_map.1 hy
      cases i.testBit k <;> simp
    · exact le_maxInt (hmem true)
  unfold vectorZipApart
  rw [if_pos (by simp [hv]), if_pos (by simp), if_neg hne, hmax]
  congr 1
  apply List.ext_getElem?
  intro c
  rw [zipApart_fold]
  have hr : List.replicate ((1 : Int) + 1).toNat ([] : List Bool) = [[], []] := rfl
  rw [hr]
  rcases c with _ | _ | c
  · have := part_eq_half hv hk false
    simp only [List.getElem?_cons_zero, Option.map_some, List.nil_append]
    exact congrArg some this
  · have := part_eq_half hv hk true
    simp only [List.getElem?_cons_succ, List.getElem?_cons_zero, Option.map_some, List.nil_append]
    exact congrArg some this
  · rfl

theorem sum_part (v : List Bool) (p : List Nat) (hl : v.length = p.length) (hp : ∀ x ∈ p, x = 0 ∨ x = 1) :
    (v.map Bool.toNat).sum = ((part v p 0).map Bool.toNat).sum + ((part v p 1).map Bool.toNat).sum := by
  induction v generalizing p with
  | nil => cases p <;> simp [part]
  | cons x v ih =>
    cases p with
    | nil => simp at hl
    | cons i p =>
      rw [part_cons, part_cons, List.map_cons, List.sum_cons, ih p (by simpa using hl) (fun y hy => hp y (List.mem_cons_of_mem _ hy))]
      rcases hp i (by simp) with rfl | rfl <;> simp <;> omega

/-- the table depends on atom number `k` -/
def Ess (v : List Bool) (n k : Nat) : Prop := half v n k false ≠ half v n k true

theorem ess_of_odd {v : List Bool} {n k : Nat} (hv : v.length = 2 ^ (n + 1)) (hk : k ≤ n) (ho : (v.map Bool.toNat).sum % 2 ≠ 0) :
    Ess v n k := by
  intro h
  apply ho
  rw [sum_part v ((List.range (2 ^ (n + 1))).map fun i => (i.testBit k).toNat) (by simp [hv]) (by
    intro x hx
    obtain ⟨i, _, rfl⟩ := List.mem_map.1 hx
    cases i.testBit k <;> simp)]
  have e0 := part_eq_half hv hk false
  have e1 := part_eq_half hv hk true
  rw [Bool.toNat_false] at e0
  rw [Bool.toNat_true] at e1
  rw [e0, e1, h]
  omega

theorem getD_half {v : List Bool} {n k : Nat} {b : Bool} {j : Nat} (hj : j < 2 ^ n) :
    (half v n k b).getD j false = v.getD (ins k b j) false := by
  unfold half
  rw [List.getD_eq_getElem?_getD, List.getElem?_map, List.getElem?_range hj]; rfl

theorem valB_map_erase {α : Type} (A : List α) (a : α → Bool) (k : Nat) (hk : k < A.length) :
    valB (A.map a) = ins k (a A[k]) (valB ((A.eraseIdx k).map a)) := by
  apply Nat.eq_of_testBit_eq
  intro i
  rw [testBit_ins]
  have key : ∀ (L : List α) (i : Nat), (valB (L.map a)).testBit i = (L[i]?.map a).getD false := by
    intro L i
    rw [testBit_valB, List.getD_eq_getElem?_getD, List.getElem?_map]
  rw [key, key, key, List.getElem?_eraseIdx, List.getElem?_eraseIdx]
  by_cases h : i < k
  · rw [if_pos h, if_pos h]
  · rw [if_neg h]
    by_cases h2 : i = k
    · subst h2
      rw [if_pos rfl, List.getElem?_eq_getElem hk]; rfl
    · rw [if_neg h2, if_neg (by omega)]
      congr 3; omega

theorem valB_map_lt {α : Type} (A : List α) (a : α → Bool) : valB (A.map a) < 2 ^ A.length := by
  have := valB_lt (A.map a); simpa using this

theorem deflateLoop_spec {α : Type} (fuel : Nat) (v : List Bool) (A : List α) (idx : Nat) (hv : v.length = 2 ^ A.length)
    (hidx : idx ≤ A.length) (hess : ∀ k < idx, Ess v (A.length - 1) k) (hf : (A.length + 1) * (A.length + 2) ≤ fuel + idx) :
    ∃ v' A', deflateLoop fuel v A idx = .ok (v', A') ∧ v'.length = 2 ^ A'.length ∧ A'.Sublist A ∧
      (∀ a : α → Bool, v'.getD (valB (A'.map a)) false = v.getD (valB (A.map a)) false) ∧
      ∀ k < A'.length, Ess v' (A'.length - 1) k := by
  induction fuel generalizing v A idx with
  | zero =>
    exfalso
    have : A.length + 1 ≤ (A.length + 1) * (A.length + 2) := Nat.le_mul_of_pos_right _ (by omega)
    omega
  | succ fuel ih =>
    unfold deflateLoop
    by_cases hw : (v.map Bool.toNat).sum % 2 = 0
    · rw [if_pos hw]
      by_cases hi : idx ≥ A.length
      · rw [if_pos hi]
        exact ⟨v, A, rfl, hv, List.Sublist.refl _, fun _ => rfl, fun k hk => hess k (by omega)⟩
      · rw [if_neg hi]
        obtain ⟨n, hn⟩ : ∃ n, A.length = n + 1 := ⟨A.length - 1, by omega⟩
        have hv' : v.length = 2 ^ (n + 1) := by rw [hv, hn]
        rw [hn, makeAtompattern_nat (by omega)]
        simp only
        rw [zipApart_halves hv' (by omega)]
        simp only
        by_cases hh : half v n idx false = half v n idx true
        · rw [if_pos hh]
          have hlen : (A.eraseIdx idx).length = n := by rw [List.length_eraseIdx, if_pos (by omega)]; omega
          obtain ⟨v', A', h1, h2, h3, h4, h5⟩ := ih (half v n idx false) (A.eraseIdx idx) 0
            (by rw [hlen]; simp [half]) (by omega) (by omega) (by
              rw [hlen]
              rw [hn] at hf hidx
              have e : (n + 1 + 1) * (n + 1 + 2) = (n + 1) * (n + 2) + 2 * (n + 2) := by ring
              omega)
          refine ⟨v', A', h1, h2, h3.trans (List.eraseIdx_sublist _ _), fun a => ?_, h5⟩
          rw [h4, getD_half (by rw [← hlen]; exact valB_map_lt _ _), valB_map_erase A a idx (by omega)]
          have hj : valB ((A.eraseIdx idx).map a) < 2 ^ n := by rw [← hlen]; exact valB_map_lt _ _
          cases a A[idx] with
          | false => rfl
          | true => rw [← getD_half (k := idx) (b := true) hj, ← getD_half (k := idx) (b := false) hj, hh]
        · rw [if_neg hh]
          apply ih v A (idx + 1) hv (by omega)
          · intro k hk
            by_cases hk' : k = idx
            · subst hk'; rw [hn]; exact hh
            · exact hess k (by omega)
          · omega
    · rw [if_neg hw]
      refine ⟨v, A, rfl, hv, List.Sublist.refl _, fun _ => rfl, fun k hk => ?_⟩
      obtain ⟨n, hn⟩ : ∃ n, A.length = n + 1 := ⟨A.length - 1, by omega⟩
      rw [hn] at hk hv ⊢
      exact ess_of_odd hv (by omega) hw

theorem deflate_spec {α : Type} (b : Binv) (A : List α) (hv : b.length = 2 ^ A.length) :
    ∃ b' A', deflate b A = .ok (b', A') ∧ b'.length = 2 ^ A'.length ∧ A'.Sublist A ∧
      (∀ a : α → Bool, b'.vector.getD (valB (A'.map a)) false = b.vector.getD (valB (A.map a)) false) ∧
      ∀ k < A'.length, Ess b'.vector (A'.length - 1) k := by
  obtain ⟨v', A', h1, h2⟩ := deflateLoop_spec ((A.length + 1) * (A.length + 2)) b.vector A 0 hv (by omega) (by omega) (by omega)
  exact ⟨⟨v'⟩, A', by unfold deflate; rw [h1], h2⟩

end Verif.BF
