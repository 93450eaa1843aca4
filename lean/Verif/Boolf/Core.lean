import Verif.Boolf.Order

/-! # Reading the values of a Boolean function, truth tables -/

namespace Verif.BF
open Verif.Py Verif.BV Verif.P Verif.W
open Verif.A hiding Mat

theorem testBit_two_pow_add' {w x : Nat} (h : x.testBit w = false) (p : Nat) :
    (2 ^ w + x).testBit p = (decide (p = w) || x.testBit p) := by
  have e : 2 ^ w + x = ins w true (del w x) := by
    have := ins_del w x
    rw [h] at this
    conv_lhs => rw [← this]
    unfold ins
    simp only [Bool.toNat_true, Bool.toNat_false]
    ring
  have e2 : x.testBit p = (ins w false (del w x)).testBit p := by
    have := ins_del w x
    rw [h] at this
    rw [this]
  rw [e, e2, testBit_ins, testBit_ins]
  by_cases h1 : p < w
  · rw [if_pos h1, if_pos h1]
    have : p ≠ w := by omega
    simp [this]
  · rw [if_neg h1, if_neg h1]
    by_cases h2 : p = w
    · simp [h2]
    · simp [h2]

theorem foldl_add_eq (l : List (Nat × Bool)) (n : Nat) : l.foldl (fun r p => r + p.1) n = n + (l.map Prod.fst).sum := by
  induction l generalizing n with
  | nil => simp
  | cons x l ih => rw [List.foldl_cons, ih, List.map_cons, List.sum_cons]; omega

theorem sierpinskiEntry_cons (x : Nat) (b : Bool) (l : List Nat) (bs : List Bool) :
    sierpinskiEntry (x :: l) (b :: bs) = (if b then x else 0) + sierpinskiEntry l bs := by
  unfold sierpinskiEntry
  rw [foldl_add_eq, foldl_add_eq, List.zip_cons_cons, List.filter_cons]
  cases b <;> simp

theorem testBit_sierpinskiEntry {W : List Nat} (hW : W.Nodup) (bs : List Bool) (hl : bs.length = W.length) (p : Nat) :
    (sierpinskiEntry (W.map (1 <<< ·)) bs).testBit p = true ↔ ∃ k : Nat, W[k]? = some p ∧ bs[k]? = some true := by
  induction W generalizing bs p with
  | nil => simp [sierpinskiEntry]
  | cons w W ih =>
    cases bs with
    | nil => simp at hl
    | cons b bs =>
      have hw := List.nodup_cons.1 hW
      have ih' := ih hw.2 bs (by simpa using hl) p
      rw [List.map_cons, sierpinskiEntry_cons]
      have hsplit : (∃ k : Nat, (w :: W)[k]? = some p ∧ (b :: bs)[k]? = some true) ↔
          (w = p ∧ b = true) ∨ ∃ k : Nat, W[k]? = some p ∧ bs[k]? = some true := by
        constructor
        · rintro ⟨k, h1, h2⟩
          cases k with
          | zero => left; exact ⟨by simpa using h1, by simpa using h2⟩
          | succ k => right; exact ⟨k, by simpa using h1, by simpa using h2⟩
        · rintro (⟨rfl, rfl⟩ | ⟨k, h1, h2⟩)
          · exact ⟨0, rfl, rfl⟩
          · exact ⟨k + 1, by simpa using h1, by simpa using h2⟩
      rw [hsplit, ← ih']
      cases b with
      | false => simp
      | true =>
        have h0 : (sierpinskiEntry (W.map (1 <<< ·)) bs).testBit w = false := by
          cases hc : (sierpinskiEntry (W.map (1 <<< ·)) bs).testBit w with
          | false => rfl
          | true =>
            exfalso
            obtain ⟨k, h1, _⟩ := (ih hw.2 bs (by simpa using hl) w).1 hc
            exact hw.1 (List.mem_of_getElem? h1)
        have e : (if true = true then (1 <<< w : Nat) else 0) = 2 ^ w := by rw [if_pos rfl, Nat.shiftLeft_eq, Nat.one_mul]
        rw [e, testBit_two_pow_add' h0]
        simp only [Bool.or_eq_true, decide_eq_true_eq, and_true]
        constructor
        · rintro (h | h)
          · exact Or.inl h.symm
          · exact Or.inr h
        · rintro (h | h)
          · exact Or.inl h.symm
          · exact Or.inr h

/-- entry `i` of the Sierpinski row -/
def rowEntry (W : List Nat) (i : Nat) : Nat := sierpinskiEntry (W.map (1 <<< ·)) ((List.range W.length).map i.testBit)

theorem testBit_rowEntry {W : List Nat} (hW : W.Nodup) (i p : Nat) :
    (rowEntry W i).testBit p = true ↔ ∃ k : Nat, W[k]? = some p ∧ i.testBit k = true := by
  unfold rowEntry
  rw [testBit_sierpinskiEntry hW _ (by simp)]
  constructor
  · rintro ⟨k, h1, h2⟩
    refine ⟨k, h1, ?_⟩
    rw [List.getElem?_map, List.getElem?_range (getElem?_some_lt h1)] at h2
    simpa using h2
  · rintro ⟨k, h1, h2⟩
    refine ⟨k, h1, ?_⟩
    rw [List.getElem?_map, List.getElem?_range (getElem?_some_lt h1)]
    simpa using h2

theorem sierpinskiRow_eq (W : List Nat) : sierpinskiRow W = .ok ((List.range (2 ^ W.length)).map (rowEntry W)) := by
  unfold sierpinskiRow
  by_cases hW : W = []
  · subst hW; rfl
  · rw [if_neg hW]
    have hpos : 0 < W.length := List.length_pos_iff.2 hW
    simp only [List.length_map]
    apply mapM_ok
    intro i hi
    rw [mk_intval_bits hpos (List.mem_range.1 hi)]
    rfl

theorem rowEntry_inj {W : List Nat} (hW : W.Nodup) {i j : Nat} (hi : i < 2 ^ W.length) (hj : j < 2 ^ W.length) (h : rowEntry W i = rowEntry W j) :
    i = j := by
  have key : ∀ i j, rowEntry W i = rowEntry W j → ∀ k < W.length, i.testBit k = true → j.testBit k = true := by
    intro i j h k hk hb
    have := (testBit_rowEntry hW i (W[k])).2 ⟨k, List.getElem?_eq_getElem hk, hb⟩
    rw [h] at this
    obtain ⟨m, m1, m2⟩ := (testBit_rowEntry hW j (W[k])).1 this
    have : k = m := (List.getElem?_inj hk hW).1 (by rw [m1, List.getElem?_eq_getElem hk])
    rw [this]; exact m2
  apply Nat.eq_of_testBit_eq
  intro k
  by_cases hk : k < W.length
  · have h1 := key i j h k hk
    have h2 := key j i h.symm k hk
    cases hi' : i.testBit k <;> cases hj' : j.testBit k <;> simp_all
  · rw [Nat.testBit_lt_two_pow (lt_of_lt_of_le hi (Nat.pow_le_pow_right (by omega) (by omega))),
      Nat.testBit_lt_two_pow (lt_of_lt_of_le hj (Nat.pow_le_pow_right (by omega) (by omega)))]

theorem idxOf_map_range {n : Nat} {e : Nat → Nat} (he : ∀ i < n, ∀ j < n, e i = e j → i = j) {i : Nat} (hi : i < n) :
    ((List.range n).map e).idxOf (e i) = i := by
  have hm : e i ∈ (List.range n).map e := List.mem_map.2 ⟨i, List.mem_range.2 hi, rfl⟩
  have hlt := List.idxOf_lt_length_of_mem hm
  have h2 := List.getElem_idxOf hlt
  rw [List.getElem_map, List.getElem_range] at h2
  exact he _ (by simpa using hlt) _ hi h2

/-- the lookup in boolf/__init__.py:163-166 and boolf/methods/tt/__init__.py:33-35 -/
theorem lookup {W : List Nat} (hW : W.Nodup) :
    ∃ b, BV.mk { exposet := some (W.map Int.ofNat) } = .ok b ∧
      ∀ key : Nat, indexOf ((List.range (2 ^ W.length)).map (rowEntry W)) (key &&& b.intval) = .ok (valB (W.map key.testBit)) := by
  obtain ⟨b, b1, _, b3⟩ := (C26_exposet W 0).2.2
  refine ⟨b, b1, fun key => ?_⟩
  have hlt : valB (W.map key.testBit) < 2 ^ W.length := valB_map_lt W _
  have e : key &&& b.intval = rowEntry W (valB (W.map key.testBit)) := by
    apply Nat.eq_of_testBit_eq
    intro p
    rw [Nat.testBit_and, Bool.eq_iff_iff, testBit_rowEntry hW, Bool.and_eq_true]
    have hb : b.intval.testBit p = true ↔ p ∈ W := by
      rw [← b3, mem_exposet, intval_eq, testBit_valB, List.getD_eq_getElem?_getD]
      cases b.vector[p]? <;> simp
    rw [hb]
    constructor
    · rintro ⟨h1, h2⟩
      obtain ⟨k, hk⟩ := List.mem_iff_getElem?.1 h2
      exact ⟨k, hk, by rw [testBit_valB_map, hk]; exact h1⟩
    · rintro ⟨k, h1, h2⟩
      rw [testBit_valB_map, h1] at h2
      exact ⟨h2, List.mem_of_getElem? h1⟩
  unfold indexOf
  rw [e, if_pos (List.mem_map.2 ⟨_, List.mem_range.2 hlt, rfl⟩)]
  rw [idxOf_map_range (fun i hi j hj => rowEntry_inj hW hi hj) hlt]

/-- the value of a Boolean function under an assignment of the atoms -/
def Boolf.eval (f : Boolf) (a : Nat → Bool) : Bool := f.root.vector.getD (valB (f.atomvals.map a)) false

/-- what holds for all accepted objects -/
structure Sound (f : Boolf) : Prop where
  asc : f.atomvals.Pairwise (· < ·)
  len : f.root.vector.length = 2 ^ f.atomvals.length
  val : f.valency = f.atomvals.length
  adic : ∀ n, f.adicity ≤ n ↔ ∀ x ∈ f.atomvals, x < n

theorem Sound.nodup {f : Boolf} (h : Sound f) : f.atomvals.Nodup := h.asc.imp (fun h => Nat.ne_of_lt h)

theorem Sound.adic_lt {f : Boolf} (h : Sound f) {x : Nat} (hx : x ∈ f.atomvals) : x < f.adicity := (h.adic _).1 le_rfl x hx

theorem Boolf.eval_congr {f : Boolf} {a b : Nat → Bool} (h : ∀ x ∈ f.atomvals, a x = b x) : f.eval a = f.eval b := by
  unfold Boolf.eval
  rw [List.map_congr_left h]

theorem root_getItem {f : Boolf} (h : Sound f) (a : Nat → Bool) : f.root.getItem (valB (f.atomvals.map a)) = .ok (f.eval a) := by
  have hlt : valB (f.atomvals.map a) < f.root.length := by
    unfold Binv.length; rw [h.len]; exact valB_map_lt _ _
  rw [getItem_ok hlt]
  unfold Boolf.eval
  rw [List.getD_eq_getElem?_getD, List.getElem?_eq_getElem hlt]; rfl

theorem getItem_eq {f : Boolf} (h : Sound f) (key : Nat) : f.getItem key = .ok (f.eval key.testBit) := by
  obtain ⟨b, b1, b2⟩ := lookup h.nodup
  unfold Boolf.getItem Boolf.atomvalsInteger
  simp only [b1, bind, Except.bind, pure, Except.pure]
  rw [sierpinskiRow_eq]
  simp only
  rw [b2]
  exact root_getItem h _

/-! ### the method `tt` -/

theorem tt_arity_eq {f : Boolf} (h : Sound f) {n : Nat} (hn : f.adicity ≤ n) :
    f.tt (.arity n) = .ok ⟨(List.range (2 ^ n)).map fun i => f.eval i.testBit⟩ := by
  unfold Boolf.tt
  simp only
  rw [if_neg (by omega), if_pos (by omega), Int.toNat_natCast, mapM_ok (g := fun i => f.eval i.testBit) (fun i _ => getItem_eq h i)]
  exact ofBools_eq _

theorem tt_noArg_eq {f : Boolf} : f.tt .noArg = f.tt (.arity f.adicity) := by
  unfold Boolf.tt
  simp only
  rw [if_neg (by omega), if_pos (by omega), Int.toNat_natCast]

theorem mem_dedup_filter {f : Boolf} {l : List Int} {x : Int} :
    x ∈ (l.dedup.filter fun a => !(f.atomvals.map Int.ofNat).contains a).insertionSort (· ≤ ·) ↔ x ∈ l ∧ ∀ y ∈ f.atomvals, (y : Int) ≠ x := by
  rw [(List.perm_insertionSort _ _).mem_iff, List.mem_filter, List.mem_dedup]
  constructor
  · rintro ⟨h1, h2⟩
    refine ⟨h1, fun y hy hc => ?_⟩
    have : (f.atomvals.map Int.ofNat).contains x = true := by
      rw [List.contains_iff_mem]; exact List.mem_map.2 ⟨y, hy, hc⟩
    rw [this] at h2; cases h2
  · rintro ⟨h1, h2⟩
    refine ⟨h1, ?_⟩
    rw [Bool.not_eq_true']
    rw [← Bool.not_eq_true, List.contains_iff_mem]
    intro hc
    obtain ⟨y, hy, e⟩ := List.mem_map.1 hc
    exact h2 y hy e

theorem workAtomvals_eq (atoms : List Nat) (aliens : List Int) :
    workAtomvals atoms aliens = atoms.zipIdx.map fun p => p.2 + aliens.countP (fun x => decide (x < (p.1 : Int))) := by
  have key : ∀ (aliens : List Int) (c : Nat → Nat),
      aliens.foldl (fun work alien => (work.zip atoms).map fun wc => if alien < (wc.2 : Int) then wc.1 + 1 else wc.1)
        (atoms.zipIdx.map fun p => p.2 + c p.1) =
      atoms.zipIdx.map fun p => p.2 + (c p.1 + aliens.countP (fun x => decide (x < (p.1 : Int)))) := by
    intro aliens
    induction aliens with
    | nil => intro c; simp
    | cons x xs ih =>
      intro c
      rw [List.foldl_cons]
      have e : ((atoms.zipIdx.map fun p => p.2 + c p.1).zip atoms).map (fun wc => if x < (wc.2 : Int) then wc.1 + 1 else wc.1) =
          atoms.zipIdx.map fun p => p.2 + (c p.1 + if x < (p.1 : Int) then 1 else 0) := by
        have hz : (atoms.zipIdx.map fun p => p.2 + c p.1).zip atoms = atoms.zipIdx.map fun p => (p.2 + c p.1, p.1) := by
          have : ∀ (l : List Nat) (n : Nat), ((l.zipIdx n).map fun p => p.2 + c p.1).zip l = (l.zipIdx n).map fun p => (p.2 + c p.1, p.1) := by
            intro l
            induction l with
            | nil => intro n; rfl
            | cons y l ih => intro n; simp [List.zipIdx_cons, ih]
          exact this atoms 0
        rw [hz, List.map_map]
        apply List.map_congr_left
        intro p _
        simp only [Function.comp]
        split <;> omega
      rw [e, ih (fun y => c y + if x < (y : Int) then 1 else 0)]
      apply List.map_congr_left
      intro p _
      rw [List.countP_cons]
      simp only [decide_eq_true_eq]
      omega
  unfold workAtomvals
  have h0 : List.range atoms.length = atoms.zipIdx.map fun p => p.2 + (fun _ => 0) p.1 := by
    simp [List.range_eq_range']
  rw [h0, key aliens (fun _ => 0)]
  simp

end Verif.BF
