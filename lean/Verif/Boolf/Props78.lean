import Mathlib.LinearAlgebra.Matrix.Charpoly.Basic
import Verif.Boolf.Model24
import Verif.Boolf.Props5
import Verif.Boolf.Props11
import Verif.Boolf.Props12
import Verif.Boolf.Props15

/-!
# C145: diagonal_adjacency_matrix
-/

namespace Verif.BF
open Verif.Py Verif.BV Verif.P Verif.W
open Verif.A hiding Mat

/-- the number of the first `n` binary digits in which two numbers differ -/
def distance (n a b : Nat) : Nat := (List.range n).countP fun k => a.testBit k != b.testBit k

/-- the square matrix with the given entries -/
def squareOf (n : Nat) (g : Nat → Nat → Int) : List (List Int) := (List.range n).map fun i => (List.range n).map (g i)

theorem squareOf_entry {n : Nat} {g : Nat → Nat → Int} {i j : Nat} (hi : i < n) (hj : j < n) : ((squareOf n g).getD i []).getD j 0 = g i j := by
  unfold squareOf
  simp [hi, hj]

theorem setEntry_squareOf {n : Nat} {g : Nat → Nat → Int} {i j : Nat} (e : Int) :
    setPair (squareOf n g) i j e = squareOf n fun x y => if x = i ∧ y = j then e else g x y := by
  unfold setPair squareOf
  apply List.ext_getElem (by simp)
  intro x h1 h2
  have hx : x < n := by simpa using h2
  rw [List.getElem_modify]
  simp only [List.getElem_map, List.getElem_range]
  by_cases hxi : i = x
  · subst hxi
    rw [if_pos rfl]
    apply List.ext_getElem (by simp)
    intro y h3 h4
    rw [List.getElem_set]
    simp only [List.getElem_map, List.getElem_range]
    by_cases hy : j = y
    · subst hy; simp
    · rw [if_neg hy, if_neg (by tauto)]
  · rw [if_neg hxi]
    apply List.map_congr_left
    intro y _
    rw [if_neg (by omega)]

theorem weight_intval (n : Nat) : ∃ b, BV.mk { intval := some (n : Int) } = .ok b ∧ b.weight = intToWeight n := by
  obtain ⟨b, b1, b2, _⟩ := C26_intval_only n
  refine ⟨b, b1, ?_⟩
  rw [← b2, intval_eq, weight_valB]
  unfold Binv.weight
  induction b.vector with
  | nil => rfl
  | cons x l ih => cases x <;> simp [ih, Nat.add_comm]

theorem weight_distance {n a b : Nat} (ha : a < 2 ^ n) (hb : b < 2 ^ n) : intToWeight (a ^^^ b) = distance n a b := by
  rw [weight_ones (Nat.xor_lt_two_pow ha hb)]
  unfold ones distance
  apply List.countP_congr
  intro k _
  rw [Nat.testBit_xor]

theorem distance_comm (n a b : Nat) : distance n a b = distance n b a := by
  unfold distance
  apply List.countP_congr
  intro k _
  cases a.testBit k <;> cases b.testBit k <;> simp

theorem distance_zero {n a b : Nat} (ha : a < 2 ^ n) (hb : b < 2 ^ n) : distance n a b = 0 ↔ a = b := by
  constructor
  · intro h
    unfold distance at h
    rw [List.countP_eq_zero] at h
    apply Nat.eq_of_testBit_eq
    intro k
    by_cases hk : k < n
    · simpa using h k (List.mem_range.2 hk)
    · have hp : 2 ^ n ≤ 2 ^ k := Nat.pow_le_pow_right (by omega) (by omega)
      rw [Nat.testBit_lt_two_pow (by omega), Nat.testBit_lt_two_pow (by omega)]
  · rintro rfl
    simp [distance]

/-- the entry for two different vertices -/
def signAt (n : Nat) (m : List Bool) (a b : Nat) : Int := if m[distance n a b - 1]? = some true then -1 else 1

theorem diagonalStep_eq {n : Nat} {V : List Nat} {m : List Bool} {a b : Nat} {g : Nat → Nat → Int} (ha : a < 2 ^ n) (hb : b < 2 ^ n) (ha' : a ∈ V) (hb' : b ∈ V) :
    (distance n a b - 1 < m.length → diagonalStep V m a b (squareOf V.length g) = .ok (squareOf V.length fun x y =>
      if x = V.idxOf b ∧ y = V.idxOf a then signAt n m a b else if x = V.idxOf a ∧ y = V.idxOf b then signAt n m a b else g x y)) ∧
    (m.length ≤ distance n a b - 1 → diagonalStep V m a b (squareOf V.length g) = .error .indexError) := by
  obtain ⟨w, w1, w2⟩ := weight_intval (a ^^^ b)
  rw [weight_distance ha hb] at w2
  have hpa : placeOf V a = .ok (V.idxOf a) := by unfold placeOf; rw [if_pos ha']
  have hpb : placeOf V b = .ok (V.idxOf b) := by unfold placeOf; rw [if_pos hb']
  unfold diagonalStep
  simp only [bind, Except.bind, pure, Except.pure, w1, hpa, hpb, w2]
  constructor
  · intro h
    have hit : item m (distance n a b - 1) = .ok m[distance n a b - 1] := by unfold item; rw [List.getElem?_eq_getElem h]
    simp only [hit]
    have he : (if m[distance n a b - 1] = true then (-1 : Int) else 1) = signAt n m a b := by unfold signAt; rw [List.getElem?_eq_getElem h]; simp
    rw [he, setEntry_squareOf, setEntry_squareOf]
  · intro h
    have hit : item m (distance n a b - 1) = .error .indexError := by unfold item; rw [List.getElem?_eq_none h]
    simp only [hit]

theorem diagonalLoop_spec {f : Boolf} (h : Sound f) {m : List Bool} : ∀ (L : List (Nat × Nat)) (g : Nat → Nat → Int),
    (∀ p ∈ L, p.1 < p.2 ∧ p.2 < 2 ^ f.valency) →
    ((∀ p ∈ L, p.1 ∈ f.fullspots → p.2 ∈ f.fullspots → distance f.valency p.1 p.2 ≤ m.length) →
      diagonalLoop f.root f.fullspots m L (squareOf f.fullspots.length g) = .ok (squareOf f.fullspots.length fun i j =>
        if (f.fullspots.getD i 0, f.fullspots.getD j 0) ∈ L ∨ (f.fullspots.getD j 0, f.fullspots.getD i 0) ∈ L then
          signAt f.valency m (f.fullspots.getD i 0) (f.fullspots.getD j 0) else g i j)) ∧
    (¬ (∀ p ∈ L, p.1 ∈ f.fullspots → p.2 ∈ f.fullspots → distance f.valency p.1 p.2 ≤ m.length) →
      diagonalLoop f.root f.fullspots m L (squareOf f.fullspots.length g) = .error .indexError)
  | [], g, _ => ⟨fun _ => by simp [diagonalLoop], fun h => absurd (by simp) h⟩
  | (a, b) :: rest, g, hL => by
    obtain ⟨hab, hb⟩ := hL (a, b) (by simp)
    simp only at hab hb
    have hrest : ∀ p ∈ rest, p.1 < p.2 ∧ p.2 < 2 ^ f.valency := fun p hp => hL p (List.mem_cons_of_mem _ hp)
    have hget : ∀ x, x < 2 ^ f.valency → f.root.getItem x = .ok (decide (x ∈ f.fullspots)) := fun x hx => by
      have hl : x < f.root.vector.length := by rw [h.len, ← h.val]; exact hx
      unfold Binv.getItem
      rw [List.getElem?_eq_getElem hl]
      simp only [mem_fullspots, List.getElem?_eq_getElem hl, Option.some.injEq]
      simp
    have hnd : f.fullspots.Nodup := (fullspots_asc f).imp fun h => Nat.ne_of_lt h
    have hidx : ∀ i x, i < f.fullspots.length → x ∈ f.fullspots → (i = f.fullspots.idxOf x ↔ f.fullspots.getD i 0 = x) := fun i x hi hx => by
      rw [List.getD_eq_getElem?_getD, List.getElem?_eq_getElem hi, Option.getD_some]
      constructor
      · rintro rfl
        exact List.getElem_idxOf _
      · rintro rfl
        exact (hnd.idxOf_getElem _ hi).symm
    unfold diagonalLoop
    simp only [bind, Except.bind, hget a (by omega), hget b hb]
    by_cases hin : a ∈ f.fullspots ∧ b ∈ f.fullspots
    · rw [if_pos (by simp [hin])]
      obtain ⟨s1, s2⟩ := diagonalStep_eq (m := m) (g := g) (show a < 2 ^ f.valency by omega) hb hin.1 hin.2
      have hd : distance f.valency a b ≠ 0 := fun hz => by
        rw [distance_zero (by omega) hb] at hz
        omega
      by_cases hlt : distance f.valency a b ≤ m.length
      · rw [s1 (by omega)]
        simp only
        obtain ⟨ih1, ih2⟩ := diagonalLoop_spec h (m := m) rest _ hrest
        constructor
        · intro hall
          rw [ih1 fun p hp => hall p (List.mem_cons_of_mem _ hp)]
          unfold squareOf
          congr 1
          apply List.map_congr_left
          intro i hi
          apply List.map_congr_left
          intro j hj
          rw [List.mem_range] at hi hj
          simp only [List.mem_cons, Prod.mk.injEq, hidx _ _ hi hin.1, hidx _ _ hj hin.1, hidx _ _ hi hin.2, hidx _ _ hj hin.2]
          by_cases hr : (f.fullspots.getD i 0, f.fullspots.getD j 0) ∈ rest ∨ (f.fullspots.getD j 0, f.fullspots.getD i 0) ∈ rest
          · rw [if_pos hr, if_pos (hr.imp Or.inr Or.inr)]
          · rw [if_neg hr]
            by_cases h1 : f.fullspots.getD i 0 = b ∧ f.fullspots.getD j 0 = a
            · rw [if_pos h1, if_pos (Or.inr (Or.inl ⟨h1.2, h1.1⟩)), h1.1, h1.2]
              unfold signAt
              rw [distance_comm]
            · rw [if_neg h1]
              by_cases h2 : f.fullspots.getD i 0 = a ∧ f.fullspots.getD j 0 = b
              · rw [if_pos h2, if_pos (Or.inl (Or.inl h2)), h2.1, h2.2]
              · rw [if_neg h2, if_neg]
                rintro ((hc | hc) | (hc | hc))
                · exact h2 hc
                · exact hr (Or.inl hc)
                · exact h1 ⟨hc.2, hc.1⟩
                · exact hr (Or.inr hc)
        · intro hall
          apply ih2
          intro hc
          apply hall
          intro p hp h1 h2
          rcases List.mem_cons.1 hp with rfl | hp
          · exact hlt
          · exact hc p hp h1 h2
      · rw [s2 (by omega)]
        exact ⟨fun hall => absurd (hall (a, b) (by simp) hin.1 hin.2) hlt, fun _ => rfl⟩
    · rw [if_neg (by simpa using hin)]
      obtain ⟨ih1, ih2⟩ := diagonalLoop_spec h (m := m) rest g hrest
      constructor
      · intro hall
        rw [ih1 fun p hp => hall p (List.mem_cons_of_mem _ hp)]
        unfold squareOf
        congr 1
        apply List.map_congr_left
        intro i hi
        apply List.map_congr_left
        intro j hj
        rw [List.mem_range] at hi hj
        have hmi : f.fullspots.getD i 0 ∈ f.fullspots := by rw [List.getD_eq_getElem?_getD, List.getElem?_eq_getElem hi]; exact List.getElem_mem hi
        have hmj : f.fullspots.getD j 0 ∈ f.fullspots := by rw [List.getD_eq_getElem?_getD, List.getElem?_eq_getElem hj]; exact List.getElem_mem hj
        simp only [List.mem_cons, Prod.mk.injEq]
        have n1 : ¬ (f.fullspots.getD i 0 = a ∧ f.fullspots.getD j 0 = b) := fun hc => hin ⟨hc.1 ▸ hmi, hc.2 ▸ hmj⟩
        have n2 : ¬ (f.fullspots.getD j 0 = a ∧ f.fullspots.getD i 0 = b) := fun hc => hin ⟨hc.1 ▸ hmj, hc.2 ▸ hmi⟩
        simp only [n1, n2, false_or]
      · intro hall
        apply ih2
        intro hc
        apply hall
        intro p hp h1 h2
        rcases List.mem_cons.1 hp with rfl | hp
        · exact absurd ⟨h1, h2⟩ hin
        · exact hc p hp h1 h2

/-- the entry of the matrix for two vertices -/
def diagonalEntry (n : Nat) (m : List Bool) (a b : Nat) : Int := if a = b then 0 else signAt n m a b

theorem diagonal_eq {f : Boolf} (h : Sound f) (m : List Bool) :
    ((∀ a ∈ f.fullspots, ∀ b ∈ f.fullspots, distance f.valency a b ≤ m.length) →
      f.diagonalAdjacencyMatrix m = .ok (squareOf f.fullspots.length fun i j => diagonalEntry f.valency m (f.fullspots.getD i 0) (f.fullspots.getD j 0))) ∧
    (¬ (∀ a ∈ f.fullspots, ∀ b ∈ f.fullspots, distance f.valency a b ≤ m.length) → f.diagonalAdjacencyMatrix m = .error .indexError) := by
  have hsort : sorted f.fullspots = f.fullspots := sorted_exposet f.root
  have hz : List.replicate f.fullspots.length (List.replicate f.fullspots.length (0 : Int)) = squareOf f.fullspots.length fun _ _ => 0 := by
    unfold squareOf
    rw [List.map_const', List.map_const']
    simp
  have hlt : ∀ a ∈ f.fullspots, a < 2 ^ f.valency := fun a ha => by rw [h.val]; exact fullspots_lt h ha
  have hiff : (∀ p ∈ pairsBelow (2 ^ f.valency), p.1 ∈ f.fullspots → p.2 ∈ f.fullspots → distance f.valency p.1 p.2 ≤ m.length) ↔
      ∀ a ∈ f.fullspots, ∀ b ∈ f.fullspots, distance f.valency a b ≤ m.length := by
    constructor
    · intro hp a ha b hb
      rcases Nat.lt_trichotomy a b with hab | rfl | hab
      · exact hp (a, b) (mem_pairsBelow.2 ⟨hab, hlt b hb⟩) ha hb
      · rw [(distance_zero (hlt a ha) (hlt a ha)).2 rfl]; omega
      · rw [distance_comm]
        exact hp (b, a) (mem_pairsBelow.2 ⟨hab, hlt a ha⟩) hb ha
    · intro hp p _ h1 h2
      exact hp _ h1 _ h2
  obtain ⟨l1, l2⟩ := diagonalLoop_spec h (m := m) (pairsBelow (2 ^ f.valency)) (fun _ _ => 0) fun p hp => mem_pairsBelow.1 hp
  rw [hiff] at l1 l2
  unfold Boolf.diagonalAdjacencyMatrix
  simp only [hsort, hz]
  refine ⟨fun hall => ?_, l2⟩
  rw [l1 hall]
  unfold squareOf
  congr 1
  apply List.map_congr_left
  intro i hi
  apply List.map_congr_left
  intro j hj
  rw [List.mem_range] at hi hj
  have hmi : f.fullspots.getD i 0 ∈ f.fullspots := by rw [List.getD_eq_getElem?_getD, List.getElem?_eq_getElem hi]; exact List.getElem_mem hi
  have hmj : f.fullspots.getD j 0 ∈ f.fullspots := by rw [List.getD_eq_getElem?_getD, List.getElem?_eq_getElem hj]; exact List.getElem_mem hj
  unfold diagonalEntry
  simp only [mem_pairsBelow]
  have h1 := hlt _ hmi
  have h2 := hlt _ hmj
  by_cases he : f.fullspots.getD i 0 = f.fullspots.getD j 0
  · rw [if_pos he, if_neg (by omega)]
  · rw [if_neg he, if_pos (by omega)]

/-- **C145.** The matrix has a row and a column for each full spot, in ascending order.  The diagonal is zero.  The entry for two different spots is negative if the
argument is true at the place of their distance (the number of digits in which they differ, counted from one).  If the argument is too short, `IndexError` is raised. -/
theorem C145_matrix (f : Boolf) (hf : Obj f) (m : List Bool) :
    ((∀ a ∈ f.fullspots, ∀ b ∈ f.fullspots, distance f.valency a b ≤ m.length) → ∃ M, f.diagonalAdjacencyMatrix m = .ok M ∧
      M.length = f.fullspots.length ∧ (∀ row ∈ M, row.length = f.fullspots.length) ∧
      ∀ i j a b : Nat, f.fullspots[i]? = some a → f.fullspots[j]? = some b →
        (i = j → (M.getD i []).getD j 0 = 0) ∧
        (i ≠ j → ∀ k, distance f.valency a b = k + 1 → (M.getD i []).getD j 0 = if m[k]? = some true then -1 else 1) ∧
        (M.getD i []).getD j 0 = (M.getD j []).getD i 0) ∧
    (¬ (∀ a ∈ f.fullspots, ∀ b ∈ f.fullspots, distance f.valency a b ≤ m.length) → f.diagonalAdjacencyMatrix m = .error .indexError) := by
  obtain ⟨h1, h2⟩ := diagonal_eq hf.good.toSound m
  refine ⟨fun hall => ⟨_, h1 hall, by simp [squareOf], by simp [squareOf], fun i j a b hi hj => ?_⟩, h2⟩
  have hil := (List.getElem?_eq_some_iff.1 hi).1
  have hjl := (List.getElem?_eq_some_iff.1 hj).1
  have ei : f.fullspots.getD i 0 = a := by rw [List.getD_eq_getElem?_getD, hi]; rfl
  have ej : f.fullspots.getD j 0 = b := by rw [List.getD_eq_getElem?_getD, hj]; rfl
  rw [squareOf_entry hil hjl, squareOf_entry hjl hil, ei, ej]
  have hnd : f.fullspots.Nodup := (fullspots_asc f).imp fun h => Nat.ne_of_lt h
  refine ⟨fun hij => ?_, fun hij k hk => ?_, ?_⟩
  · subst hij
    rw [hi] at hj
    unfold diagonalEntry
    rw [if_pos (Option.some.inj hj)]
  · unfold diagonalEntry
    rw [if_neg fun hab => hij ((hnd.getElem_inj_iff (hi := hil) (hj := hjl)).1 (by
      rw [(List.getElem?_eq_some_iff.1 hi).2, (List.getElem?_eq_some_iff.1 hj).2, hab]))]
    unfold signAt
    rw [hk]
    simp
  · unfold diagonalEntry signAt
    rw [distance_comm]
    simp only [eq_comm]

/-! ## signed permutations -/

/-- the atoms of the new function -/
theorem action_atoms {f g : Boolf} (hf : Canon f) (hg : Canon g) {s : SG.SigPerm} (hs : SG.Finite s) (he : ∀ a, g.eval a = f.eval fun x => lit a (s.value x)) :
    g.atomvals.Perm (f.atomvals.map fun x => (logicAbs (s.value x)).toNat) := by
  have hnd : (f.atomvals.map fun x => (logicAbs (s.value x)).toNat).Nodup := hf.toSound.nodup.map fun x y => value_inj hs
  rw [List.perm_ext_iff_of_nodup hg.toSound.nodup hnd]
  intro y
  rw [hg.mem_iff, List.mem_map]
  constructor
  · rintro ⟨a, ha⟩
    rw [he, he] at ha
    by_contra hc
    apply ha
    refine Boolf.eval_congr fun x hx => ?_
    have hne : (logicAbs (s.value x)).toNat ≠ y := fun h => hc ⟨x, hx, h⟩
    unfold lit upd
    rw [if_neg hne, if_neg hne]
  · rintro ⟨x, hx, rfl⟩
    obtain ⟨a, ha⟩ := (hf.mem_iff x).1 hx
    obtain ⟨_, _, _, hu, _⟩ := SG.C31_sequence s hs
    choose pre hpre _ using hu
    have hpre' : ∀ x, pre (logicAbs (s.value x)).toNat = x := fun x => by
      apply value_inj hs
      rcases hpre (logicAbs (s.value x)).toNat with h | h
      · rw [h]
        unfold logicAbs; omega
      · rw [h]
        unfold logicAbs A.inv; split <;> split <;> omega
    let back : (Nat → Bool) → Nat → Bool := fun b y => (b (pre y)).xor (decide (s.value (pre y) < 0))
    have hback : ∀ b, g.eval (back b) = f.eval b := fun b => by
      rw [he]
      refine Boolf.eval_congr fun z _ => ?_
      simp only [back, lit]
      rw [hpre']
      cases b z <;> cases decide (s.value z < 0) <;> rfl
    have hupd : ∀ v, back (upd a x v) = upd (back a) (logicAbs (s.value x)).toNat (v.xor (decide (s.value x < 0))) := fun v => by
      funext y
      simp only [back, upd]
      by_cases hy : y = (logicAbs (s.value x)).toNat
      · subst hy
        rw [hpre', if_pos rfl, if_pos rfl]
      · rw [if_neg hy, if_neg]
        intro hc
        apply hy
        rw [← hc]
        rcases hpre y with h | h
        · rw [h]; unfold logicAbs; omega
        · rw [h]; unfold logicAbs A.inv; split <;> omega
    rw [← hback, ← hback, hupd, hupd] at ha
    refine ⟨back a, ?_⟩
    cases hd : decide (s.value x < 0)
    · rw [hd] at ha; exact ha
    · rw [hd] at ha; exact fun hc => ha hc.symm

theorem countP_range_getElem {α : Type} (A : List α) (p : α → Bool) : A.countP p = (List.range A.length).countP fun k => (A[k]?.map p).getD false := by
  induction A using List.reverseRecOn with
  | nil => rfl
  | append_singleton A x ih =>
    rw [List.countP_append, List.length_append, List.length_singleton, List.range_succ, List.countP_append, ih]
    congr 1
    · apply List.countP_congr
      intro k hk
      rw [List.mem_range] at hk
      rw [List.getElem?_append_left hk]
    · simp

theorem distance_valB {A : List Nat} (a b : Nat → Bool) : distance A.length (valB (A.map a)) (valB (A.map b)) = A.countP fun x => a x != b x := by
  rw [countP_range_getElem]
  unfold distance
  apply List.countP_congr
  intro k hk
  rw [List.mem_range] at hk
  rw [testBit_valB_map, testBit_valB_map, List.getElem?_eq_getElem hk]
  rfl

/-- the spots of the new function correspond to those of the old one, with the same distances -/
theorem action_spots {f g : Boolf} (hf : Canon f) (hg : Canon g) {s : SG.SigPerm} (hs : SG.Finite s) (he : ∀ a, g.eval a = f.eval fun x => lit a (s.value x)) :
    g.valency = f.valency ∧ ∃ φ : Nat → Nat, (g.fullspots.map φ).Perm f.fullspots ∧
      ∀ i ∈ g.fullspots, ∀ j ∈ g.fullspots, distance f.valency (φ i) (φ j) = distance g.valency i j := by
  have hatoms := action_atoms hf hg hs he
  have hlen : g.atomvals.length = f.atomvals.length := by simpa using hatoms.length_eq
  refine ⟨by rw [hg.toSound.val, hf.toSound.val, hlen], ?_⟩
  rw [hf.toSound.val, hg.toSound.val]
  let asg : Nat → Nat → Bool := fun j y => j.testBit (g.atomvals.idxOf y)
  let φ : Nat → Nat := fun j => valB (f.atomvals.map fun x => lit (asg j) (s.value x))
  have hasg : ∀ j < 2 ^ g.atomvals.length, valB (g.atomvals.map (asg j)) = j := fun j hj => by
    apply Nat.eq_of_testBit_eq
    intro k
    rw [testBit_valB_map]
    by_cases hk : k < g.atomvals.length
    · rw [List.getElem?_eq_getElem hk]
      simp only [Option.map_some, Option.getD_some, asg]
      rw [hg.toSound.nodup.idxOf_getElem]
    · have hp : 2 ^ g.atomvals.length ≤ 2 ^ k := Nat.pow_le_pow_right (by omega) (by omega)
      rw [List.getElem?_eq_none (by omega), Nat.testBit_lt_two_pow (by omega)]
      rfl
  have hdist : ∀ i < 2 ^ g.atomvals.length, ∀ j < 2 ^ g.atomvals.length, distance f.atomvals.length (φ i) (φ j) = distance g.atomvals.length i j := fun i hi j hj => by
    have e1 := distance_valB (A := g.atomvals) (asg i) (asg j)
    rw [hasg i hi, hasg j hj] at e1
    rw [e1, hatoms.countP_eq, List.countP_map]
    simp only [φ]
    rw [distance_valB]
    apply List.countP_congr
    intro x _
    simp only [Function.comp, lit]
    cases asg i (logicAbs (s.value x)).toNat <;> cases asg j (logicAbs (s.value x)).toNat <;> cases decide (s.value x < 0) <;> simp
  have hφlt : ∀ j, φ j < 2 ^ f.atomvals.length := fun j => by
    have := valB_lt (f.atomvals.map fun x => lit (asg j) (s.value x))
    simpa using this
  have hinj : ∀ i < 2 ^ g.atomvals.length, ∀ j < 2 ^ g.atomvals.length, φ i = φ j → i = j := fun i hi j hj hij => by
    rw [← distance_zero hi hj, ← hdist i hi j hj, distance_zero (hφlt i) (hφlt j)]
    exact hij
  have hsurj : ∀ y < 2 ^ f.atomvals.length, ∃ j < 2 ^ g.atomvals.length, φ j = y := by
    have himg : (Finset.range (2 ^ g.atomvals.length)).image φ = Finset.range (2 ^ f.atomvals.length) := by
      apply Finset.eq_of_subset_of_card_le
      · intro y hy
        obtain ⟨j, _, rfl⟩ := Finset.mem_image.1 hy
        exact Finset.mem_range.2 (hφlt j)
      · rw [Finset.card_image_of_injOn fun i hi j hj hij => hinj i (Finset.mem_range.1 (Finset.mem_coe.1 hi)) j (Finset.mem_range.1 (Finset.mem_coe.1 hj)) hij]
        simp [hlen]
    intro y hy
    have := himg ▸ Finset.mem_range.2 hy
    obtain ⟨j, hj, rfl⟩ := Finset.mem_image.1 this
    exact ⟨j, Finset.mem_range.1 hj, rfl⟩
  have hval : ∀ j < 2 ^ g.atomvals.length, (j ∈ g.fullspots ↔ φ j ∈ f.fullspots) := fun j hj => by
    have := he (asg j)
    unfold Boolf.eval at this
    rw [hasg j hj] at this
    rw [mem_fullspots, mem_fullspots]
    have l1 : j < g.root.vector.length := by rw [hg.toSound.len]; exact hj
    have l2 : φ j < f.root.vector.length := by rw [hf.toSound.len]; exact hφlt j
    rw [List.getD_eq_getElem?_getD, List.getD_eq_getElem?_getD] at this
    change _ = (f.root.vector[φ j]?).getD false at this
    rw [List.getElem?_eq_getElem l1, List.getElem?_eq_getElem l2] at this
    rw [List.getElem?_eq_getElem l1, List.getElem?_eq_getElem l2]
    simp only [Option.getD_some] at this
    rw [this]
  have hltg : ∀ j ∈ g.fullspots, j < 2 ^ g.atomvals.length := fun j hj => fullspots_lt hg.toSound hj
  refine ⟨φ, ?_, fun i hi j hj => hdist i (hltg i hi) j (hltg j hj)⟩
  rw [List.perm_ext_iff_of_nodup]
  · intro y
    rw [List.mem_map]
    constructor
    · rintro ⟨j, hj, rfl⟩
      exact (hval j (hltg j hj)).1 hj
    · intro hy
      obtain ⟨j, hj, rfl⟩ := hsurj y (fullspots_lt hf.toSound hy)
      exact ⟨j, (hval j hj).2 hy, rfl⟩
  · refine List.Nodup.map_on (fun i hi j hj hij => hinj i (hltg i hi) j (hltg j hj) hij) ((fullspots_asc g).imp fun h => Nat.ne_of_lt h)
  · exact (fullspots_asc f).imp fun h => Nat.ne_of_lt h

/-- **C145.** For functions in the same clan (one is the other with permuted and negated arguments) the matrices are the same up to the order of the vertices.
So their characteristic polynomials are equal.  (The exception is also the same.) -/
theorem C145_clan (f : Boolf) (hf : Reach f) (s : SG.SigPerm) (hs : SG.Finite s) (m : List Bool) :
    ∃ g, f.applySigperm (.sigperm s) = .ok g ∧
      (∀ M, f.diagonalAdjacencyMatrix m = .ok M → ∃ (N : List (List Int)) (π : List Nat), g.diagonalAdjacencyMatrix m = .ok N ∧ N.length = M.length ∧ π.Perm (List.range M.length) ∧
        (∀ i j x y : Nat, π[i]? = some x → π[j]? = some y → (N.getD i []).getD j 0 = (M.getD x []).getD y 0) ∧
        (Matrix.of fun i j : Fin M.length => (N.getD i []).getD j 0).charpoly = (Matrix.of fun i j : Fin M.length => (M.getD i []).getD j 0).charpoly) ∧
      (f.diagonalAdjacencyMatrix m = .error .indexError → g.diagonalAdjacencyMatrix m = .error .indexError) := by
  obtain ⟨g, g1, g2, g3, g4⟩ := action hf.obj hs
  have hfc := hf.canon
  have hgc := g3 hfc
  obtain ⟨hv, φ, p1, p2⟩ := action_spots hfc hgc hs g4
  obtain ⟨f1, f2⟩ := diagonal_eq hfc.toSound m
  obtain ⟨k1, k2⟩ := diagonal_eq hgc.toSound m
  have hiff : (∀ a ∈ g.fullspots, ∀ b ∈ g.fullspots, distance g.valency a b ≤ m.length) ↔ ∀ a ∈ f.fullspots, ∀ b ∈ f.fullspots, distance f.valency a b ≤ m.length := by
    constructor
    · intro h a ha b hb
      obtain ⟨i, hi, rfl⟩ := List.mem_map.1 (p1.mem_iff.2 ha)
      obtain ⟨j, hj, rfl⟩ := List.mem_map.1 (p1.mem_iff.2 hb)
      rw [p2 i hi j hj]
      exact h i hi j hj
    · intro h a ha b hb
      rw [← p2 a ha b hb]
      exact h _ (p1.mem_iff.1 (List.mem_map.2 ⟨a, ha, rfl⟩)) _ (p1.mem_iff.1 (List.mem_map.2 ⟨b, hb, rfl⟩))
  refine ⟨g, g1, fun M hM => ?_, fun herr => ?_⟩
  · have hall : ∀ a ∈ f.fullspots, ∀ b ∈ f.fullspots, distance f.valency a b ≤ m.length := by
      by_contra hc
      rw [f2 hc] at hM
      cases hM
    rw [f1 hall] at hM
    have hM' := Except.ok.inj hM
    have hN := k1 (hiff.2 hall)
    have hndf : f.fullspots.Nodup := (fullspots_asc f).imp fun h => Nat.ne_of_lt h
    have hlen : g.fullspots.length = f.fullspots.length := by simpa using p1.length_eq
    have hMl : M.length = f.fullspots.length := by rw [← hM']; simp [squareOf]
    have hφmem : ∀ j ∈ g.fullspots, φ j ∈ f.fullspots := fun j hj => p1.mem_iff.1 (List.mem_map.2 ⟨j, hj, rfl⟩)
    have hπ : (g.fullspots.map fun j => f.fullspots.idxOf (φ j)).Perm (List.range M.length) := by
      have e : g.fullspots.map (fun j => f.fullspots.idxOf (φ j)) = (g.fullspots.map φ).map f.fullspots.idxOf := by rw [List.map_map]; rfl
      rw [e, hMl]
      refine (p1.map _).trans ?_
      have : f.fullspots.map f.fullspots.idxOf = List.range f.fullspots.length := by
        apply List.ext_getElem (by simp)
        intro i h1 h2
        rw [List.getElem_map, List.getElem_range, hndf.idxOf_getElem]
      rw [this]
    have hentry : ∀ i j x y : Nat, (g.fullspots.map fun j => f.fullspots.idxOf (φ j))[i]? = some x → (g.fullspots.map fun j => f.fullspots.idxOf (φ j))[j]? = some y →
        ((squareOf g.fullspots.length fun i j => diagonalEntry g.valency m (g.fullspots.getD i 0) (g.fullspots.getD j 0)).getD i []).getD j 0 = (M.getD x []).getD y 0 := by
      intro i j x y hx hy
      rw [List.getElem?_map, Option.map_eq_some_iff] at hx hy
      obtain ⟨a, ha, rfl⟩ := hx
      obtain ⟨b, hb, rfl⟩ := hy
      have hil := (List.getElem?_eq_some_iff.1 ha).1
      have hjl := (List.getElem?_eq_some_iff.1 hb).1
      have ham := List.mem_of_getElem? ha
      have hbm := List.mem_of_getElem? hb
      have lx := List.idxOf_lt_length_iff.2 (hφmem a ham)
      have ly := List.idxOf_lt_length_iff.2 (hφmem b hbm)
      rw [← hM', squareOf_entry hil hjl, squareOf_entry lx ly]
      have e1 : g.fullspots.getD i 0 = a := by rw [List.getD_eq_getElem?_getD, ha]; rfl
      have e2 : g.fullspots.getD j 0 = b := by rw [List.getD_eq_getElem?_getD, hb]; rfl
      have e3 : f.fullspots.getD (f.fullspots.idxOf (φ a)) 0 = φ a := by rw [List.getD_eq_getElem?_getD, List.getElem?_eq_getElem lx]; exact List.getElem_idxOf lx
      have e4 : f.fullspots.getD (f.fullspots.idxOf (φ b)) 0 = φ b := by rw [List.getD_eq_getElem?_getD, List.getElem?_eq_getElem ly]; exact List.getElem_idxOf ly
      rw [e1, e2, e3, e4]
      unfold diagonalEntry signAt
      rw [p2 a ham b hbm]
      have hab : a = b ↔ φ a = φ b := by
        rw [← distance_zero (n := g.valency) (by rw [hgc.toSound.val]; exact fullspots_lt hgc.toSound ham) (by rw [hgc.toSound.val]; exact fullspots_lt hgc.toSound hbm), ← p2 a ham b hbm,
          distance_zero (by rw [hfc.toSound.val]; exact fullspots_lt hfc.toSound (hφmem a ham)) (by rw [hfc.toSound.val]; exact fullspots_lt hfc.toSound (hφmem b hbm))]
      simp only [hab]
    refine ⟨_, _, hN, by rw [hMl, ← hlen]; simp [squareOf], hπ, hentry, ?_⟩
    have hπl : (g.fullspots.map fun j => f.fullspots.idxOf (φ j)).length = M.length := by simpa using hπ.length_eq
    generalize (g.fullspots.map fun j => f.fullspots.idxOf (φ j)) = π at hπ hentry hπl
    let p : Fin M.length → Fin M.length := fun i => ⟨π[i.1]'(by omega), List.mem_range.1 (hπ.mem_iff.1 (List.getElem_mem _))⟩
    have hp : Function.Injective p := fun i j hij => by
      have hnd : π.Nodup := hπ.nodup_iff.2 List.nodup_range
      have := congrArg Fin.val hij
      exact Fin.ext ((hnd.getElem_inj_iff).1 this)
    let e : Fin M.length ≃ Fin M.length := Equiv.ofBijective p (Finite.injective_iff_bijective.1 hp)
    have hre : (Matrix.of fun i j : Fin M.length => ((squareOf g.fullspots.length fun i j => diagonalEntry g.valency m (g.fullspots.getD i 0) (g.fullspots.getD j 0)).getD i []).getD j 0) =
        Matrix.reindex e.symm e.symm (Matrix.of fun i j : Fin M.length => (M.getD i []).getD j 0) := by
      ext i j
      rw [Matrix.reindex_apply, Matrix.submatrix_apply, Matrix.of_apply, Matrix.of_apply]
      exact hentry i j _ _ (List.getElem?_eq_getElem (by omega)) (List.getElem?_eq_getElem (by omega))
    rw [hre, Matrix.charpoly_reindex]
  · apply k2
    rw [hiff]
    intro hall
    rw [f1 hall] at herr
    cases herr

/-- the majority of three atoms: the full spots are 3, 5, 6 and 7 -/
example : ∃ f, Reach f ∧ f.fullspots = [3, 5, 6, 7] ∧
    f.diagonalAdjacencyMatrix [true, false] = .ok [[0, 1, 1, -1], [1, 0, 1, -1], [1, 1, 0, -1], [-1, -1, -1, 0]] ∧
    f.diagonalAdjacencyMatrix [true] = .error .indexError := by
  have h : newTT (.list [0, 0, 0, 1, 0, 1, 1, 1]) =
      .ok { atomvals := [0, 1, 2], root := ⟨[false, false, false, true, false, true, true, true]⟩, adicity := 3, valency := 3 } := by decide
  exact ⟨_, reach_newTT h, by decide +kernel, by decide +kernel, by decide +kernel⟩

end Verif.BF
