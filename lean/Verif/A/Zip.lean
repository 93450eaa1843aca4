import Verif.Py.Basic

/-! # Model of a/vector_zip_apart and a/vector_zip_together; property C23

Plain lists only (the `Binv` and tuple variants only change the container type). -/

namespace Verif.A
open Verif.Py

/-! ## Model -/

/-- python `max(l)` of a non-empty list of integers (0 for the empty one, excluded before). -/
def maxInt : List Int → Int
  | [] => 0
  | [x] => x
  | x :: xs => max x (maxInt xs)

/-- a/vector_zip_apart/__init__.py:6-27; line 18 raises `ValueError` for an empty pattern. -/
def vectorZipApart {α : Type} (vector : List α) (pattern : List Int) : Except Err (List (List α)) :=
  if vector.length = pattern.length then
    if pattern.all (fun x => x ≥ 0) then
      if pattern = [] then .error .valueError
      else
        .ok ((vector.zip pattern).foldl (fun result vp => result.modify vp.2.toNat (· ++ [vp.1]))
          (List.replicate (maxInt pattern + 1).toNat []))
    else .error .notNatural
  else .error .lengthError

/-- a/vector_zip_together/__init__.py:21-24; `pop(0)` of an empty list is an `IndexError`. -/
def zipTogetherLoop {α : Type} : List Nat → List (List α) → Except Err (List α)
  | [], _ => .ok []
  | i :: is, short =>
    match short[i]? with
    | none => .error .indexError
    | some [] => .error .indexError
    | some (x :: xs) =>
      match zipTogetherLoop is (short.set i xs) with
      | .error e => .error e
      | .ok r => .ok (x :: r)

/-- a/vector_zip_together/__init__.py:1-29, for patterns of natural numbers (a negative entry would
count from the end); line 26 raises `IndexError` when there are no short vectors. -/
def vectorZipTogether {α : Type} (short : List (List α)) (pattern : List Nat) : Except Err (List α) :=
  if pattern.length = (short.map List.length).sum then
    match zipTogetherLoop pattern short with
    | .error e => .error e
    | .ok r => if short = [] then .error .indexError else .ok r
  else .error .assertion

/-! ## Lemmas -/

/-- The entries of `v` at the places where `p` is `k`. -/
def part {α : Type} (v : List α) (p : List Nat) (k : Nat) : List α :=
  (v.zip p).filterMap (fun ap => if ap.2 = k then some ap.1 else none)

theorem part_cons {α : Type} (a : α) (v : List α) (i : Nat) (p : List Nat) (k : Nat) :
    part (a :: v) (i :: p) k = (if i = k then [a] else []) ++ part v p k := by
  unfold part
  rw [List.zip_cons_cons, List.filterMap_cons]
  by_cases h : i = k <;> simp [h]

theorem le_maxInt {l : List Int} {x : Int} (h : x ∈ l) : x ≤ maxInt l := by
  induction l with
  | nil => simp at h
  | cons y ys ih =>
    cases ys with
    | nil => simp at h; subst h; simp [maxInt]
    | cons z zs =>
      rw [maxInt]
      rcases List.mem_cons.1 h with rfl | h
      · exact le_max_left _ _
      · exact le_trans (ih h) (le_max_right _ _)
      · simp

theorem maxInt_mem {l : List Int} (h : l ≠ []) : maxInt l ∈ l := by
  induction l with
  | nil => exact absurd rfl h
  | cons y ys ih =>
    cases ys with
    | nil => simp [maxInt]
    | cons z zs =>
      rw [maxInt]
      · rcases Int.le_total y (maxInt (z :: zs)) with e | e
        · rw [max_eq_right e]; exact List.mem_cons_of_mem _ (ih (by simp))
        · rw [max_eq_left e]; simp
      · simp

theorem zipApart_fold {α : Type} (v : List α) (p : List Nat) (acc : List (List α)) (k : Nat) :
    ((v.zip (p.map Int.ofNat)).foldl (fun result vp => result.modify vp.2.toNat (· ++ [vp.1])) acc)[k]? =
      acc[k]?.map (· ++ part v p k) := by
  induction v generalizing p acc with
  | nil => simp [part]
  | cons a v ih =>
    cases p with
    | nil => simp [part]
    | cons i p =>
      rw [List.map_cons, List.zip_cons_cons, List.foldl_cons, ih, part_cons]
      simp only [Int.ofNat_eq_natCast, Int.toNat_natCast, List.getElem?_modify]
      cases h : acc[k]? with
      | none => simp
      | some l =>
        by_cases hik : i = k <;> simp [hik]

theorem zipTogetherLoop_part {α : Type} (v : List α) (p : List Nat) (s : List (List α)) (hl : v.length = p.length)
    (hp : ∀ i ∈ p, i < s.length) (hs : ∀ (k : Nat) (l : List α), s[k]? = some l → l = part v p k) :
    zipTogetherLoop p s = .ok v := by
  induction p generalizing v s with
  | nil => have : v = [] := by simpa using hl
           subst this; rfl
  | cons i p ih =>
    cases v with
    | nil => simp at hl
    | cons a v =>
      have hi := hp i (by simp)
      have h1 := hs i _ (List.getElem?_eq_getElem hi)
      rw [part_cons, if_pos rfl] at h1
      unfold zipTogetherLoop
      rw [List.getElem?_eq_getElem hi, h1]
      simp only [List.singleton_append]
      rw [ih v (s.set i (part v p i)) (by simpa using hl) (fun j hj => by simpa using hp j (by simp [hj]))]
      intro k l hk
      by_cases hik : i = k
      · subst hik
        rw [List.getElem?_set_self hi] at hk
        exact (Option.some.inj hk).symm
      · rw [List.getElem?_set_ne hik] at hk
        have := hs k l hk
        rwa [part_cons, if_neg hik, List.nil_append] at this

theorem zipTogetherLoop_ok {α : Type} (v : List α) (p : List Nat) (s : List (List α)) (h : zipTogetherLoop p s = .ok v) :
    v.length = p.length ∧ (∀ i ∈ p, i < s.length) ∧
      ∀ (k : Nat) (l : List α), s[k]? = some l → part v p k <+: l := by
  induction p generalizing v s with
  | nil =>
    simp only [zipTogetherLoop, Except.ok.injEq] at h
    subst h
    simp [part]
  | cons i p ih =>
    unfold zipTogetherLoop at h
    split at h
    · cases h
    · cases h
    · rename_i x xs hx
      split at h
      · cases h
      · rename_i r hr
        simp only [Except.ok.injEq] at h
        subst h
        obtain ⟨h1, h2, h3⟩ := ih r _ hr
        have hi : i < s.length := by
          by_contra hge
          rw [List.getElem?_eq_none (by omega)] at hx; cases hx
        refine ⟨by simp [h1], ?_, ?_⟩
        · intro j hj
          rcases List.mem_cons.1 hj with rfl | hj
          · exact hi
          · simpa using h2 j hj
        · intro k l hk
          rw [part_cons]
          by_cases hik : i = k
          · subst hik
            rw [hx] at hk
            cases hk
            have := h3 i xs (by rw [List.getElem?_set_self hi])
            simpa using this
          · rw [if_neg hik, List.nil_append]
            exact h3 k l (by rw [List.getElem?_set_ne hik]; exact hk)

theorem zipTogetherLoop_error {α : Type} (p : List Nat) (s : List (List α)) (e : Err)
    (h : zipTogetherLoop p s = .error e) : e = .indexError := by
  induction p generalizing s with
  | nil => cases h
  | cons i p ih =>
    unfold zipTogetherLoop at h
    split at h
    · cases h; rfl
    · cases h; rfl
    · split at h
      · rename_i hr; cases h; exact ih _ hr
      · cases h

theorem length_part {α : Type} (v : List α) (p : List Nat) (k : Nat) (hl : v.length = p.length) :
    (part v p k).length = p.count k := by
  induction p generalizing v with
  | nil => have : v = [] := by simpa using hl
           subst this; simp [part]
  | cons i p ih =>
    cases v with
    | nil => simp at hl
    | cons a v =>
      rw [part_cons, List.length_append, ih v (by simpa using hl), List.count_cons]
      by_cases h : i = k <;> simp [h]; omega

/-- Every pattern entry falls into exactly one of the counted boxes. -/
theorem sum_count (p : List Nat) (n : Nat) (hp : ∀ i ∈ p, i < n) :
    ((List.range n).map (fun k => p.count k)).sum = p.length := by
  induction p with
  | nil => simp
  | cons i p ih =>
    have hi := hp i (by simp)
    have h1 := ih (fun j hj => hp j (by simp [hj]))
    rw [List.length_cons, ← h1]
    have : ∀ m, ((List.range m).map (fun k => (i :: p).count k)).sum =
        ((List.range m).map (fun k => p.count k)).sum + if i < m then 1 else 0 := by
      intro m
      induction m with
      | zero => simp
      | succ m ihm =>
        rw [List.range_succ, List.map_append, List.sum_append, ihm, List.map_append, List.sum_append]
        simp only [List.map_cons, List.map_nil, List.sum_cons, List.sum_nil, List.count_cons]
        by_cases h2 : i < m
        · have h3 : i ≠ m := by omega
          have h4 : i < m + 1 := by omega
          simp [h2, h3, h4]; omega
        · by_cases h3 : i = m
          · simp [h3]; omega
          · have h4 : ¬ i < m + 1 := by omega
            simp [h2, h3, h4]
    rw [this n, if_pos hi]

theorem map_length_sum_eq {α : Type} (s : List (List α)) (c : Nat → Nat)
    (h : ∀ (k : Nat) (l : List α), s[k]? = some l → c k ≤ l.length) :
    ((List.range s.length).map c).sum ≤ (s.map List.length).sum ∧
    (((List.range s.length).map c).sum = (s.map List.length).sum →
      ∀ (k : Nat) (l : List α), s[k]? = some l → c k = l.length) := by
  induction s generalizing c with
  | nil => simp
  | cons x xs ih =>
    have h0 := h 0 x rfl
    obtain ⟨h1, h2⟩ := ih (fun k => c (k + 1)) (fun k l hk => h (k + 1) l (by simpa using hk))
    rw [List.length_cons, List.range_succ_eq_map, List.map_cons, List.sum_cons, List.map_cons, List.sum_cons,
      List.map_map]
    have e : (c ∘ Nat.succ) = fun k => c (k + 1) := rfl
    rw [e]
    refine ⟨by omega, ?_⟩
    intro hs k l hk
    cases k with
    | zero =>
      simp only [List.getElem?_cons_zero, Option.some.injEq] at hk
      subst hk; omega
    | succ k => exact h2 (by omega) k l (by simpa using hk)

/-! ## C23 -/

/-- Box `k` of the result contains, in order, the entries at the places with pattern value `k`, and
zipping the boxes together gives the vector back. -/
theorem C23_apart_together {α : Type} (v : List α) (p : List Nat) (hl : v.length = p.length) (h0 : p ≠ []) :
    ∃ parts, vectorZipApart v (p.map Int.ofNat) = .ok parts ∧
      (∀ i ∈ p, i < parts.length) ∧ (parts.length - 1 ∈ p) ∧
      (∀ (k : Nat) (l : List α), parts[k]? = some l →
        l = ((v.zip p).filter (fun ap => ap.2 = k)).map Prod.fst) ∧
      vectorZipTogether parts p = .ok v := by
  have hne : p.map Int.ofNat ≠ [] := by simpa using h0
  have hmax := maxInt_mem hne
  obtain ⟨m, hm, hm2⟩ := List.mem_map.1 hmax
  have hmlen : (maxInt (p.map Int.ofNat) + 1).toNat = m + 1 := by rw [← hm2]; simp
  have hall : ((p.map Int.ofNat).all (fun x => x ≥ 0)) = true := by simp
  have hle : ∀ i ∈ p, i ≤ m := by
    intro i hi
    have := le_maxInt (List.mem_map_of_mem hi : Int.ofNat i ∈ p.map Int.ofNat)
    rw [← hm2] at this
    simpa using this
  have hpart : ∀ k, part v p k = ((v.zip p).filter (fun ap => ap.2 = k)).map Prod.fst := by
    intro k
    unfold part
    rw [← List.filterMap_eq_map, List.filterMap_filter]
    apply List.filterMap_congr
    intro ap _
    by_cases h : ap.2 = k <;> simp [h]
  have hget : ∀ (k : Nat), ((v.zip (p.map Int.ofNat)).foldl (fun result vp => result.modify vp.2.toNat (· ++ [vp.1]))
      (List.replicate (m + 1) []))[k]? = if k < m + 1 then some (part v p k) else none := by
    intro k
    rw [zipApart_fold]
    by_cases hk : k < m + 1
    · simp [hk]
    · simp [hk]
  have hlen : ((v.zip (p.map Int.ofNat)).foldl (fun result vp => result.modify vp.2.toNat (· ++ [vp.1]))
      (List.replicate (m + 1) [])).length = m + 1 := by
    generalize ((v.zip (p.map Int.ofNat)).foldl (fun result vp => result.modify vp.2.toNat (· ++ [vp.1]))
      (List.replicate (m + 1) [])) = res at hget
    apply Nat.le_antisymm
    · have := hget (m + 1)
      rw [if_neg (by omega)] at this
      exact List.getElem?_eq_none_iff.1 this
    · have := hget m
      rw [if_pos (by omega)] at this
      by_contra h
      rw [List.getElem?_eq_none (by omega)] at this
      cases this
  refine ⟨_, by unfold vectorZipApart; rw [if_pos (by simpa using hl), if_pos hall, if_neg hne, hmlen], ?_, ?_, ?_, ?_⟩
  · intro i hi; rw [hlen]; have := hle i hi; omega
  · rw [hlen]; simpa using hm
  · intro k l hk
    rw [hget] at hk
    split at hk
    · rw [← Option.some.inj hk, hpart]
    · cases hk
  · generalize ((v.zip (p.map Int.ofNat)).foldl (fun result vp => result.modify vp.2.toNat (· ++ [vp.1]))
      (List.replicate (m + 1) [])) = res at hget hlen
    have hres : res = (List.range (m + 1)).map (part v p) := by
      apply List.ext_getElem?
      intro k
      rw [hget]
      by_cases hk : k < m + 1
      · simp [hk]
      · simp [hk]
    unfold vectorZipTogether
    rw [if_pos]
    · rw [zipTogetherLoop_part v p res hl (fun i hi => by rw [hlen]; have := hle i hi; omega)]
      · simp only
        rw [if_neg (by intro h; rw [h] at hlen; simp at hlen)]
      · intro k l hk
        rw [hget] at hk
        split at hk
        · exact (Option.some.inj hk).symm
        · cases hk
    · rw [hres, List.map_map]
      have : (List.length ∘ part v p) = fun k => p.count k := by funext k; simp [length_part v p k hl]
      rw [this, sum_count p (m + 1) (fun i hi => by have := hle i hi; omega)]

/-- `vector_zip_together` succeeds iff there are short vectors and vector `k` has as many entries as `k`
occurs in the pattern, where pattern entries must be valid indices. -/
theorem C23_together_iff {α : Type} (s : List (List α)) (p : List Nat) :
    (∃ v, vectorZipTogether s p = .ok v) ↔
      s ≠ [] ∧ (∀ i ∈ p, i < s.length) ∧ ∀ (k : Nat) (l : List α), s[k]? = some l → l.length = p.count k := by
  constructor
  · rintro ⟨v, h⟩
    unfold vectorZipTogether at h
    split at h
    · rename_i hsum
      split at h
      · cases h
      · rename_i r hr
        split at h
        · cases h
        · rename_i hne
          obtain ⟨h1, h2, h3⟩ := zipTogetherLoop_ok r p s hr
          refine ⟨hne, h2, ?_⟩
          have h4 := map_length_sum_eq s (fun k => p.count k) (fun k l hk => by
            have := (h3 k l hk).length_le
            rwa [length_part r p k h1] at this)
          intro k l hk
          exact (h4.2 (by rw [sum_count p s.length h2, hsum]) k l hk).symm
    · cases h
  · rintro ⟨h1, h2, h3⟩
    have hsum : p.length = (s.map List.length).sum := by
      rw [← sum_count p s.length h2]
      congr 1
      apply List.ext_getElem
      · simp
      · intro i hi hi'
        have : i < s.length := by simpa using hi
        have := h3 i _ (List.getElem?_eq_getElem this)
        simp [this]
    have key : ∀ (p : List Nat) (s : List (List α)), (∀ i ∈ p, i < s.length) →
        (∀ (k : Nat) (l : List α), s[k]? = some l → p.count k ≤ l.length) → ∃ v, zipTogetherLoop p s = .ok v := by
      intro p
      induction p with
      | nil => intro s _ _; exact ⟨[], rfl⟩
      | cons i p ih =>
        intro s h2 h3
        have hi := h2 i (by simp)
        have h4 := h3 i _ (List.getElem?_eq_getElem hi)
        rw [List.count_cons_self] at h4
        unfold zipTogetherLoop
        rw [List.getElem?_eq_getElem hi]
        cases hc : s[i] with
        | nil => rw [hc] at h4; simp at h4
        | cons x xs =>
          simp only
          obtain ⟨v, hv⟩ := ih (s.set i xs) (fun j hj => by simpa using h2 j (by simp [hj])) (by
            intro k l hk
            by_cases hik : i = k
            · subst hik
              rw [List.getElem?_set_self hi] at hk
              cases hk
              rw [hc] at h4; simpa using h4
            · rw [List.getElem?_set_ne hik] at hk
              have := h3 k l hk
              rwa [List.count_cons_of_ne hik] at this)
          rw [hv]; exact ⟨_, rfl⟩
    obtain ⟨v, hv⟩ := key p s h2 (fun k l hk => by rw [h3 k l hk])
    refine ⟨v, ?_⟩
    unfold vectorZipTogether
    rw [if_pos hsum, hv]
    simp [h1]

/-- Conversely, zipping apart what was zipped together gives the boxes back, if the number of boxes is
the number `zip_apart` creates (no empty boxes at the end). -/
theorem C23_together_apart {α : Type} (s : List (List α)) (p : List Nat) (v : List α) (h : vectorZipTogether s p = .ok v)
    (h0 : s.getLast? ≠ some []) : vectorZipApart v (p.map Int.ofNat) = .ok s := by
  obtain ⟨h1, h2, h3⟩ := (C23_together_iff s p).1 ⟨v, h⟩
  have hloop : zipTogetherLoop p s = .ok v := by
    unfold vectorZipTogether at h
    split at h
    · split at h
      · cases h
      · rename_i hr; rw [hr]; exact h
    · cases h
  obtain ⟨l1, l2, l3⟩ := zipTogetherLoop_ok v p s hloop
  have hlast : s.length - 1 ∈ p := by
    have hlen : s.length - 1 < s.length := by
      have : s.length ≠ 0 := fun h => h1 (List.length_eq_zero_iff.1 h)
      omega
    have h4 := h3 _ _ (List.getElem?_eq_getElem hlen)
    by_contra hn
    rw [List.count_eq_zero_of_not_mem hn] at h4
    apply h0
    rw [List.getLast?_eq_getElem?, List.getElem?_eq_getElem hlen, List.length_eq_zero_iff.1 h4]
  have hpne : p ≠ [] := by rintro rfl; simp at hlast
  obtain ⟨parts, q1, q2, q3, q4, q5⟩ := C23_apart_together v p l1 hpne
  rw [q1]
  congr 1
  have hlen : parts.length = s.length := by
    have := q2 _ hlast
    have := l2 _ q3
    have : 0 < parts.length := by omega
    omega
  apply List.ext_getElem hlen
  intro k k1 k2
  have e1 := q4 k _ (List.getElem?_eq_getElem k1)
  have e2 := l3 k _ (List.getElem?_eq_getElem k2)
  have e3 := h3 k _ (List.getElem?_eq_getElem k2)
  have hpart : part v p k = ((v.zip p).filter (fun ap => ap.2 = k)).map Prod.fst := by
    unfold part
    rw [← List.filterMap_eq_map, List.filterMap_filter]
    apply List.filterMap_congr
    intro ap _
    by_cases h : ap.2 = k <;> simp [h]
  rw [e1, ← hpart]
  exact e2.eq_of_length (by rw [length_part v p k l1, e3])

/-- The error cases of `vector_zip_apart`. -/
theorem C23_apart_errors {α : Type} (v : List α) (p : List Int) :
    (v.length ≠ p.length → vectorZipApart v p = .error .lengthError) ∧
    (v.length = p.length → (∃ x ∈ p, x < 0) → vectorZipApart v p = .error .notNatural) ∧
    vectorZipApart ([] : List α) [] = .error .valueError := by
  refine ⟨?_, ?_, rfl⟩
  · intro h; unfold vectorZipApart; rw [if_neg h]
  · rintro h ⟨x, hx, hx2⟩
    unfold vectorZipApart; rw [if_pos h, if_neg]
    rw [List.all_eq_true]
    intro h2
    have := h2 x hx
    simp at this; omega

/-- The error cases of `vector_zip_together`. -/
theorem C23_together_errors {α : Type} (s : List (List α)) (p : List Nat) (e : Err) (h : vectorZipTogether s p = .error e) :
    (e = .assertion ∧ p.length ≠ (s.map List.length).sum) ∨ (e = .indexError ∧ p.length = (s.map List.length).sum) := by
  unfold vectorZipTogether at h
  split at h
  · rename_i hs
    right
    refine ⟨?_, hs⟩
    split at h
    · rename_i hr
      cases h; exact zipTogetherLoop_error _ _ _ hr
    · split at h
      · cases h; rfl
      · cases h
  · rename_i hs; left; cases h; exact ⟨rfl, hs⟩

example : vectorZipApart [10, 11, 12, 13, 14, 15] [0, 1, 0, 1, 0, 2] = .ok [[10, 12, 14], [11, 13], [15]] ∧
    vectorZipTogether [[10, 12, 14], [11, 13], [15]] [0, 1, 0, 1, 0, 2] = .ok [10, 11, 12, 13, 14, 15] := by decide
example : vectorZipTogether [[10, 12], [11]] [1, 1, 0] = .error .indexError := by decide

end Verif.A
