import Verif.Binv.Basic
import Mathlib.Data.Nat.Bitwise

/-! # Properties C27, C28 of `Binv` -/

set_option linter.unusedSimpArgs false

namespace Verif.BV
open Verif.Py

/-! ## C27: bitwise operations -/

theorem getElem_zipWith_getD (op : Bool → Bool → Bool) (h0 : op false false = false) (v w : List Bool)
    (hl : v.length = w.length) (i : Nat) :
    (List.zipWith op v w).getD i false = op (v.getD i false) (w.getD i false) := by
  simp only [List.getD_eq_getElem?_getD, List.getElem?_zipWith]
  by_cases hi : i < v.length
  · have hi' : i < w.length := by omega
    simp [List.getElem?_eq_getElem hi, List.getElem?_eq_getElem hi']
  · rw [List.getElem?_eq_none (by omega), List.getElem?_eq_none (by omega)]
    simp [h0]

/-- **C27.** For vectors of equal length the operations give a vector of that length, whose value is the bitwise
operation on the values. -/
theorem C27_intval (b c : Binv) (h : b.length = c.length) :
    (∃ r, b.and c = .ok r ∧ r.length = b.length ∧ r.intval = b.intval &&& c.intval) ∧
    (∃ r, b.or c = .ok r ∧ r.length = b.length ∧ r.intval = b.intval ||| c.intval) ∧
    (∃ r, b.xor c = .ok r ∧ r.length = b.length ∧ r.intval = b.intval ^^^ c.intval) ∧
    (∃ r, b.complement = .ok r ∧ r.length = b.length ∧ r.intval = 2 ^ b.length - 1 - b.intval) := by
  have hl : b.vector.length = c.vector.length := h
  refine ⟨⟨_, bitwise_eq _ b c h.le, ?_, ?_⟩, ⟨_, bitwise_eq _ b c h.le, ?_, ?_⟩, ⟨_, bitwise_eq _ b c h.le, ?_, ?_⟩,
    ⟨_, complement_eq b, ?_, ?_⟩⟩
  · simp [Binv.length, hl]
  · rw [intval_eq, intval_eq, intval_eq]
    apply Nat.eq_of_testBit_eq; intro i
    rw [Nat.testBit_and, testBit_valB, testBit_valB, testBit_valB, getElem_zipWith_getD _ rfl _ _ hl]
  · simp [Binv.length, hl]
  · rw [intval_eq, intval_eq, intval_eq]
    apply Nat.eq_of_testBit_eq; intro i
    rw [Nat.testBit_or, testBit_valB, testBit_valB, testBit_valB, getElem_zipWith_getD _ rfl _ _ hl]
  · simp [Binv.length, hl]
  · rw [intval_eq, intval_eq, intval_eq]
    apply Nat.eq_of_testBit_eq; intro i
    rw [Nat.testBit_xor, testBit_valB, testBit_valB, testBit_valB, getElem_zipWith_getD _ rfl _ _ hl]
  · simp [Binv.length]
  · rw [intval_eq, intval_eq]
    unfold Binv.length
    generalize b.vector = v
    have : ∀ v : List Bool, valB (v.map (!·)) + valB v + 1 = 2 ^ v.length := by
      intro v
      induction v with
      | nil => rfl
      | cons x v ih => simp only [List.map_cons, valB, List.length_cons, Nat.pow_succ]; cases x <;> simp <;> omega
    have := this v
    simp only at *
    omega

example : (⟨[true, true, false]⟩ : Binv).xor ⟨[true, false, true]⟩ = .ok ⟨[false, true, true]⟩ := by decide

/-- Binv objects with the same digits are equal. -/
theorem ext_getElem? {v w : List Bool} (h : ∀ i : Nat, v[i]? = w[i]?) : (⟨v⟩ : Binv) = ⟨w⟩ := by
  congr 1; exact List.ext_getElem? h

/-- **C27.** The vectors of one length form a Boolean algebra: `&` and `|` are commutative, associative, absorbing,
distributive over each other, and `~` is the complement; `^` is the symmetric difference. -/
theorem C27_boolean_algebra (b c d : Binv) (hc : c.length = b.length) (hd : d.length = b.length) :
    b.and c = c.and b ∧ b.or c = c.or b ∧
    (do (← b.and c).and d) = (do b.and (← c.and d)) ∧ (do (← b.or c).or d) = (do b.or (← c.or d)) ∧
    (do b.and (← b.or c)) = .ok b ∧ (do b.or (← b.and c)) = .ok b ∧
    (do b.and (← c.or d)) = (do (← b.and c).or (← b.and d)) ∧
    (do b.or (← c.and d)) = (do (← b.or c).and (← b.or d)) ∧
    (do b.and (← b.complement)) = .ok ⟨List.replicate b.length false⟩ ∧
    (do b.or (← b.complement)) = .ok ⟨List.replicate b.length true⟩ ∧
    b.xor c = (do (← b.and (← c.complement)).or (← (← b.complement).and c)) := by
  obtain ⟨b⟩ := b
  obtain ⟨c⟩ := c
  obtain ⟨d⟩ := d
  unfold Binv.length at hc hd
  simp only at hc hd
  have key : ∀ (op : Bool → Bool → Bool) (v w : List Bool), v.length = w.length →
      (⟨v⟩ : Binv).bitwise op ⟨w⟩ = .ok ⟨List.zipWith op v w⟩ := fun op v w h => bitwise_eq op _ _ (by exact h.le)
  have kc : ∀ v : List Bool, (⟨v⟩ : Binv).complement = .ok ⟨v.map (!·)⟩ := fun v => complement_eq _
  simp only [Binv.and, Binv.or, Binv.xor, kc, bind, Except.bind, Binv.length]
  refine ⟨?_, ?_, ?_, ?_, ?_, ?_, ?_, ?_, ?_, ?_, ?_⟩
  all_goals
    repeat (rw [key _ _ _ (by simp [hc, hd])]; try dsimp only)
    refine congrArg Except.ok (ext_getElem? ?_)
    intro i
    by_cases hi : i < b.length
    · have hi2 : i < c.length := by omega
      have hi3 : i < d.length := by omega
      simp only [List.getElem?_zipWith, List.getElem?_map, List.getElem?_eq_getElem hi, List.getElem?_eq_getElem hi2,
        List.getElem?_eq_getElem hi3, List.getElem?_replicate, hi, if_true, Option.map_some]
      cases b[i] <;> cases c[i] <;> cases d[i] <;> rfl
    · have h1 : b[i]? = none := List.getElem?_eq_none (by omega)
      have h2 : c[i]? = none := List.getElem?_eq_none (by omega)
      have h3 : d[i]? = none := List.getElem?_eq_none (by omega)
      simp [List.getElem?_zipWith, h1, h2, h3, List.getElem?_replicate, hi]

example : (⟨[true, false]⟩ : Binv).length = (⟨[false, false]⟩ : Binv).length := rfl

/-- **C27.** With operands of different length: a longer right operand is cut off, a shorter one is an error. -/
theorem C27_unequal_lengths (op : Bool → Bool → Bool) (b c : Binv) :
    (b.length ≤ c.length → b.bitwise op c = b.bitwise op ⟨c.vector.take b.length⟩) ∧
    (c.length < b.length → b.bitwise op c = .error .indexError) := by
  refine ⟨?_, bitwise_error op b c⟩
  intro h
  rw [bitwise_eq _ _ _ h, bitwise_eq _ _ _ (by unfold Binv.length at *; simp; omega)]
  refine congrArg Except.ok (ext_getElem? ?_)
  intro i
  unfold Binv.length at *
  simp only [List.getElem?_zipWith, List.getElem?_take]
  by_cases hi : i < b.vector.length
  · simp [hi]
  · rw [List.getElem?_eq_none (by omega)]

/-- **C27.** For equal lengths `bitwise_smaller` means that the exposet is a proper subset. -/
theorem C27_bitwise_smaller (b c : Binv) (h : b.length = c.length) :
    ∃ r, b.bitwiseSmaller c = .ok r ∧
      (r = true ↔ (∀ i ∈ b.exposet, i ∈ c.exposet) ∧ ∃ i ∈ c.exposet, i ∉ b.exposet) := by
  unfold Binv.bitwiseSmaller Binv.eq
  by_cases he : b.vector = c.vector
  · obtain ⟨v⟩ := b
    obtain ⟨w⟩ := c
    simp only at he
    subst he
    refine ⟨false, by simp, ?_⟩
    simp
  · rw [if_neg (by simpa using he), smallerLoop_eq b c h _ (fun i hi => List.mem_range.1 hi)]
    refine ⟨_, rfl, ?_⟩
    rw [decide_eq_true_eq]
    have hb : ∀ i, i ∈ b.exposet → i < b.length := by
      intro i hi; rw [mem_exposet] at hi; exact (List.getElem?_eq_some_iff.1 hi).1
    constructor
    · intro h1
      have h2 : ∀ i ∈ b.exposet, i ∈ c.exposet := fun i hi => h1 i (List.mem_range.2 (hb i hi)) hi
      refine ⟨h2, ?_⟩
      by_contra h3
      push Not at h3
      exact he (congrArg Binv.vector (ext_exposet h (fun i => ⟨h2 i, h3 i⟩)))
    · rintro ⟨h1, _⟩ i _ hi; exact h1 i hi

/-- **C27.** `bitwise_smaller` is a strict partial order on the vectors of one length. -/
theorem C27_bitwise_smaller_order (b c d : Binv) (hc : c.length = b.length) (hd : d.length = b.length) :
    b.bitwiseSmaller b = .ok false ∧
    (b.bitwiseSmaller c = .ok true → c.bitwiseSmaller d = .ok true → b.bitwiseSmaller d = .ok true) := by
  refine ⟨by simp [Binv.bitwiseSmaller, Binv.eq], ?_⟩
  intro h1 h2
  obtain ⟨r1, e1, f1⟩ := C27_bitwise_smaller b c hc.symm
  obtain ⟨r2, e2, f2⟩ := C27_bitwise_smaller c d (by omega)
  obtain ⟨r3, e3, f3⟩ := C27_bitwise_smaller b d hd.symm
  rw [h1] at e1
  rw [h2] at e2
  cases e1; cases e2
  obtain ⟨a1, i, a2, a3⟩ := f1.1 rfl
  obtain ⟨b1, _⟩ := f2.1 rfl
  rw [e3, f3.2 ⟨fun i hi => b1 i (a1 i hi), i, b1 i a2, a3⟩]

example : (⟨[false, true, false]⟩ : Binv).bitwiseSmaller ⟨[true, true, false]⟩ = .ok true := by decide

/-! ## C28: order, equality and str -/

theorem listLt_iff (v w : List Bool) : listLt v w = true ↔
    ∃ p, (∃ y ys, v = p ∧ w = p ++ y :: ys) ∨ ∃ xs ys, v = p ++ false :: xs ∧ w = p ++ true :: ys := by
  induction v generalizing w with
  | nil =>
    cases w with
    | nil => simp [listLt]
    | cons y ys =>
      simp only [listLt, true_iff]
      exact ⟨[], Or.inl ⟨y, ys, rfl, rfl⟩⟩
  | cons x v ih =>
    cases w with
    | nil => simp [listLt]
    | cons y w =>
      rw [listLt]
      by_cases hxy : x = y
      · subst hxy
        rw [if_pos rfl, ih]
        constructor
        · rintro ⟨p, ⟨z, zs, h1, h2⟩ | ⟨xs, ys, h1, h2⟩⟩
          · exact ⟨x :: p, Or.inl ⟨z, zs, by rw [h1], by rw [h2]; rfl⟩⟩
          · exact ⟨x :: p, Or.inr ⟨xs, ys, by rw [h1]; rfl, by rw [h2]; rfl⟩⟩
        · rintro ⟨p, ⟨z, zs, h1, h2⟩ | ⟨xs, ys, h1, h2⟩⟩
          · subst h1
            simp only [List.cons_append, List.cons.injEq, true_and] at h2
            exact ⟨v, Or.inl ⟨z, zs, rfl, h2⟩⟩
          · cases p with
            | nil =>
              simp only [List.nil_append, List.cons.injEq] at h1 h2
              rw [h1.1] at h2; cases h2.1
            | cons q p =>
              simp only [List.cons_append, List.cons.injEq] at h1 h2
              exact ⟨p, Or.inr ⟨xs, ys, h1.2, h2.2⟩⟩
      · rw [if_neg hxy]
        constructor
        · intro h
          refine ⟨[], Or.inr ⟨v, w, ?_, ?_⟩⟩ <;> cases x <;> cases y <;> simp_all
        · rintro ⟨p, ⟨z, zs, h1, h2⟩ | ⟨xs, ys, h1, h2⟩⟩
          · subst h1
            simp only [List.cons_append, List.cons.injEq] at h2
            exact absurd h2.1.symm hxy
          · cases p with
            | nil =>
              simp only [List.nil_append, List.cons.injEq] at h1 h2
              rw [h1.1, h2.1]; rfl
            | cons q p =>
              simp only [List.cons_append, List.cons.injEq] at h1 h2
              exact absurd (h1.1.trans h2.1.symm) hxy

theorem listLt_irrefl (v : List Bool) : listLt v v = false := by
  induction v with
  | nil => rfl
  | cons x v ih => simp [listLt, ih]

theorem listLt_trans (u v w : List Bool) (h1 : listLt u v = true) (h2 : listLt v w = true) : listLt u w = true := by
  induction u generalizing v w with
  | nil => cases v <;> cases w <;> simp_all [listLt]
  | cons x u ih =>
    cases v with
    | nil => simp [listLt] at h1
    | cons y v =>
      cases w with
      | nil => simp [listLt] at h2
      | cons z w =>
        rw [listLt] at *
        by_cases hxy : x = y
        · subst hxy
          rw [if_pos rfl] at h1
          by_cases hxz : x = z
          · subst hxz; rw [if_pos rfl] at h2 ⊢; exact ih v w h1 h2
          · rw [if_neg hxz] at h2 ⊢; exact h2
        · rw [if_neg hxy] at h1
          by_cases hyz : y = z
          · subst hyz; rw [if_neg hxy]; exact h1
          · rw [if_neg hyz] at h2; cases x <;> cases y <;> cases z <;> simp_all

theorem listLt_total (v w : List Bool) : listLt v w = true ∨ v = w ∨ listLt w v = true := by
  induction v generalizing w with
  | nil => cases w <;> simp [listLt]
  | cons x v ih =>
    cases w with
    | nil => simp [listLt]
    | cons y w =>
      by_cases hxy : x = y
      · subst hxy; simp only [listLt, if_true, List.cons.injEq, true_and]; exact ih w
      · simp only [listLt, if_neg hxy, if_neg (Ne.symm hxy)]
        cases x <;> cases y <;> simp_all

/-- **C28.** `==` is equality of digit sequences, `<` is the lexicographic order (a proper prefix is smaller), and
the comparisons form a total order that fits together. -/
theorem C28_order (a b c : Binv) :
    (a.eq b = true ↔ a.vector = b.vector) ∧
    (a.lt b = true ↔ ∃ p, (∃ y ys, a.vector = p ∧ b.vector = p ++ y :: ys) ∨
      ∃ xs ys, a.vector = p ++ false :: xs ∧ b.vector = p ++ true :: ys) ∧
    (a.gt b = b.lt a) ∧ (a.ge b = b.le a) ∧ (a.lt b = true ↔ a.le b = true ∧ a.eq b = false) ∧
    a.le a = true ∧ (a.le b = true → b.le a = true → a.eq b = true) ∧
    (a.le b = true → b.le c = true → a.le c = true) ∧ (a.le b = true ∨ b.le a = true) ∧
    (a.lt b = true ↔ b.le a = false) := by
  have heq : ∀ a b : Binv, a.eq b = true ↔ a.vector = b.vector := by intro a b; simp [Binv.eq]
  have hle : ∀ a b : Binv, a.le b = true ↔ a.vector = b.vector ∨ listLt a.vector b.vector = true := by
    intro a b; unfold Binv.le; rw [Bool.or_eq_true, heq]; rfl
  refine ⟨heq a b, listLt_iff _ _, rfl, rfl, ?_, ?_, ?_, ?_, ?_, ?_⟩
  · rw [hle, ← Bool.not_eq_true, heq]
    constructor
    · intro h
      refine ⟨Or.inr h, ?_⟩
      intro h2
      unfold Binv.lt at h
      rw [h2, listLt_irrefl] at h
      cases h
    · rintro ⟨h | h, h2⟩
      · exact absurd h h2
      · exact h
  · rw [hle]; exact Or.inl rfl
  · rw [hle, hle, heq]
    rintro (h | h) (h' | h')
    · exact h
    · exact h
    · exact h'.symm
    · have := listLt_trans _ _ _ h h'
      rw [listLt_irrefl] at this; cases this
  · rw [hle, hle, hle]
    rintro (h | h) (h' | h')
    · exact Or.inl (h.trans h')
    · rw [h]; exact Or.inr h'
    · rw [← h']; exact Or.inr h
    · exact Or.inr (listLt_trans _ _ _ h h')
  · rw [hle, hle]
    rcases listLt_total a.vector b.vector with h | h | h
    · exact Or.inl (Or.inr h)
    · exact Or.inl (Or.inl h)
    · exact Or.inr (Or.inr h)
  · rw [← Bool.not_eq_true, hle]
    constructor
    · rintro h (h2 | h2)
      · unfold Binv.lt at h; rw [h2, listLt_irrefl] at h; cases h
      · have := listLt_trans _ _ _ h h2
        rw [listLt_irrefl] at this; cases this
    · intro h
      push Not at h
      rcases listLt_total a.vector b.vector with h1 | h1 | h1
      · exact h1
      · exact absurd h1.symm h.1
      · exact absurd h1 h.2

example : (⟨[false, true]⟩ : Binv).lt ⟨[false, true, false]⟩ = true := by decide

theorem sorted_exposet (b : Binv) : sorted b.exposet = b.exposet :=
  List.Pairwise.insertionSort_eq ((exposet_pairwise b).imp (fun h => Nat.le_of_lt h))

theorem longStr_inj {t t' : Bool} {x x' : Binv} {n n' : Nat} (h : longStr t x.exposet n = longStr t' x'.exposet n') :
    t = t' ∧ x.exposet = x'.exposet ∧ n = n' := by
  unfold longStr at h
  rw [sorted_exposet, sorted_exposet] at h
  have ht : t = t' := by
    cases t <;> cases t' <;> simp at h ⊢
  subst ht
  simp only [List.append_assoc] at h
  have h1 := List.append_cancel_left (List.append_cancel_left h)
  obtain ⟨h2, h3⟩ := listStr_inj natStr_decodable _ _ _ _ h1
  have h4 := List.append_cancel_left h3
  exact ⟨rfl, h2, (natStr_decodable.inj _ _ _ _ ⟨[], Or.inr (Or.inr rfl)⟩ ⟨[], Or.inr (Or.inr rfl)⟩ h4).1⟩

/-- **C28.** `str` never fails, and equal strings (hence equal hashes) belong exactly to equal vectors. -/
theorem C28_str (a b : Binv) : (∃ s, a.str = .ok s) ∧ (a.str = b.str ↔ a.eq b = true) := by
  have hc : ∀ b : Binv, (⟨b.vector.map (!·)⟩ : Binv).length = b.length := by intro b; simp [Binv.length]
  refine ⟨?_, ?_⟩
  · unfold Binv.str
    split
    · exact ⟨_, rfl⟩
    · split
      · rw [complement_eq]; exact ⟨_, rfl⟩
      · exact ⟨_, rfl⟩
  · constructor
    · intro h
      suffices a.vector = b.vector by simp [Binv.eq, this]
      have hshort : ∀ (s : List Char) t x n, "Binv('".toList ++ s ++ "')".toList ≠ longStr t x n := by
        intro s t x n h
        unfold longStr at h
        cases t <;> simp at h
      have hs : ∀ b : Binv, b.str = .ok ("Binv('".toList ++ b.string ++ "')".toList) ∨
          b.str = .ok (longStr true (⟨b.vector.map (!·)⟩ : Binv).exposet b.length) ∨
          b.str = .ok (longStr false b.exposet b.length) := by
        intro b
        unfold Binv.str
        rw [complement_eq]
        split
        · exact Or.inl rfl
        · split
          · exact Or.inr (Or.inl rfl)
          · exact Or.inr (Or.inr rfl)
      have hinj : Function.Injective (fun x : Bool => if x then '1' else '0') := by
        intro x y h; cases x <;> cases y <;> simp_all
      have hninj : Function.Injective (fun x : Bool => !x) := by
        intro x y h; cases x <;> cases y <;> simp_all
      rcases hs a with h1 | h1 | h1 <;> rcases hs b with h2 | h2 | h2 <;> rw [h1, h2] at h <;>
        have h := Except.ok.inj h
      · rw [string_eq, string_eq] at h
        exact List.map_injective_iff.2 hinj (List.append_cancel_left (List.append_cancel_right h))
      · exact absurd h (hshort _ _ _ _)
      · exact absurd h (hshort _ _ _ _)
      · exact absurd h.symm (hshort _ _ _ _)
      · obtain ⟨_, h2, h3⟩ := longStr_inj h
        have := ext_exposet (b := ⟨a.vector.map (!·)⟩) (c := ⟨b.vector.map (!·)⟩) (by rw [hc, hc, h3]) (by rw [h2]; simp)
        exact List.map_injective_iff.2 hninj (congrArg Binv.vector this)
      · have := (longStr_inj h).1; cases this
      · exact absurd h.symm (hshort _ _ _ _)
      · have := (longStr_inj h).1; cases this
      · obtain ⟨_, h2, h3⟩ := longStr_inj h
        rw [ext_exposet h3 (by rw [h2]; simp)]
    · intro h
      have : a = b := by
        obtain ⟨v⟩ := a
        obtain ⟨w⟩ := b
        simp [Binv.eq] at h
        rw [h]
      rw [this]

example : (⟨[false, true]⟩ : Binv).str = .ok "Binv('01')".toList := by decide

end Verif.BV
