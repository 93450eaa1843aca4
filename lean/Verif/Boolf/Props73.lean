import Verif.Boolf.Model20
import Verif.Boolf.Props5
import Verif.Boolf.Props46

/-!
# C139: colored vertices of the hypercube
-/

namespace Verif.BF
open Verif.Py Verif.BV Verif.P Verif.W
open Verif.A hiding Mat

/-- The index `e` denotes place `i` of a list of length `2 ^ n`. -/
def Denotes (n : Nat) (e : Int) (i : Nat) : Prop := e = i ∨ e = (i : Int) - 2 ^ n

instance (n : Nat) (e : Int) (i : Nat) : Decidable (Denotes n e i) := inferInstanceAs (Decidable (_ ∨ _))

/-- `c` is the last color in the dictionary, that has place `i` in its list. -/
def Painted {κ : Type} (n : Nat) (d : Dict κ (List Int)) (i : Nat) (c : κ) : Prop :=
  ∃ before spots after, d = before ++ (c, spots) :: after ∧ (∃ e ∈ spots, Denotes n e i) ∧ ∀ p ∈ after, ∀ e ∈ p.2, ¬ Denotes n e i

/-- The binary digit of `i` at place `x` is that of `j` at place `s[x]`, or its negation is that at place `~s[x]`. -/
def Image (s : SG.SigPerm) (i j : Nat) : Prop :=
  ∀ x, (0 ≤ s.value x → j.testBit (s.value x).toNat = i.testBit x) ∧ (s.value x < 0 → j.testBit (-s.value x - 1).toNat = !i.testBit x)

/-- The signed permutation concerns only the places below `n`. -/
def FitsBelow (n : Nat) (s : SG.SigPerm) : Prop :=
  ∀ x, (x < n → -(n : Int) ≤ s.value x ∧ s.value x < n) ∧ (n ≤ x → 0 ≤ s.value x)

/-! ## the vector of colors -/

theorem storeColor_spec {κ : Type} {n : Nat} {c : κ} {v : List (Option κ)} {e : Int} (hv : v.length = 2 ^ n) (he : -(2 : Int) ^ n ≤ e ∧ e < 2 ^ n) :
    ∃ w, storeColor c v e = .ok w ∧ w.length = 2 ^ n ∧ ∀ i < 2 ^ n, w[i]? = if Denotes n e i then some (some c) else v[i]? := by
  have hc : ((v.length : Nat) : Int) = 2 ^ n := by rw [hv]; norm_cast
  unfold storeColor
  simp only
  rw [hc]
  by_cases h0 : e < 0
  · rw [if_pos h0, if_pos (by omega)]
    refine ⟨_, rfl, by rw [List.length_set, hv], fun i hi => ?_⟩
    have hi' : (i : Int) < 2 ^ n := by exact_mod_cast hi
    rw [List.getElem?_set]
    by_cases hd : Denotes n e i
    · have : (e + 2 ^ n).toNat = i := by
        rcases hd with h | h <;> omega
      rw [if_pos this, if_pos hd, if_pos (by omega)]
    · have : (e + 2 ^ n).toNat ≠ i := fun h => hd (Or.inr (by omega))
      rw [if_neg this, if_neg hd]
  · rw [if_neg h0, if_pos (by omega)]
    refine ⟨_, rfl, by rw [List.length_set, hv], fun i hi => ?_⟩
    have hi' : (i : Int) < 2 ^ n := by exact_mod_cast hi
    rw [List.getElem?_set]
    by_cases hd : Denotes n e i
    · have : e.toNat = i := by
        rcases hd with h | h <;> omega
      rw [if_pos this, if_pos hd, if_pos (by omega)]
    · have : e.toNat ≠ i := fun h => hd (Or.inl (by omega))
      rw [if_neg this, if_neg hd]

theorem storeColor_error {κ : Type} {n : Nat} {c : κ} {v : List (Option κ)} {e : Int} (hv : v.length = 2 ^ n) (he : ¬ (-(2 : Int) ^ n ≤ e ∧ e < 2 ^ n)) :
    storeColor c v e = .error .indexError := by
  have hc : ((v.length : Nat) : Int) = 2 ^ n := by rw [hv]; norm_cast
  unfold storeColor
  simp only
  rw [hc, if_neg]
  intro h
  split at h <;> omega

theorem storeColors_spec {κ : Type} {n : Nat} {c : κ} : ∀ {l : List Int} {v : List (Option κ)}, v.length = 2 ^ n → (∀ e ∈ l, -(2 : Int) ^ n ≤ e ∧ e < 2 ^ n) →
    ∃ w, storeColors v (c, l) = .ok w ∧ w.length = 2 ^ n ∧ ∀ i < 2 ^ n, ((∃ e ∈ l, Denotes n e i) → w[i]? = some (some c)) ∧ ((∀ e ∈ l, ¬ Denotes n e i) → w[i]? = v[i]?)
  | [], v, hv, _ => ⟨v, rfl, hv, fun i _ => ⟨by simp, fun _ => rfl⟩⟩
  | e :: l, v, hv, h => by
    obtain ⟨u, u1, u2, u3⟩ := storeColor_spec (c := c) hv (h e List.mem_cons_self)
    obtain ⟨w, w1, w2, w3⟩ := storeColors_spec (c := c) (l := l) u2 (fun e he => h e (List.mem_cons_of_mem _ he))
    refine ⟨w, ?_, w2, fun i hi => ⟨?_, ?_⟩⟩
    · unfold storeColors at w1 ⊢
      rw [List.foldlM_cons]
      simp only at w1 ⊢
      rw [u1]
      exact w1
    · rintro ⟨e', he', hd⟩
      by_cases hl : ∃ e ∈ l, Denotes n e i
      · exact (w3 i hi).1 hl
      · rw [(w3 i hi).2 (fun e he hd => hl ⟨e, he, hd⟩), u3 i hi, if_pos]
        rcases List.mem_cons.1 he' with rfl | he'
        · exact hd
        · exact absurd ⟨e', he', hd⟩ hl
    · intro hno
      rw [(w3 i hi).2 (fun e he => hno e (List.mem_cons_of_mem _ he)), u3 i hi, if_neg (hno e List.mem_cons_self)]

theorem storeColors_error {κ : Type} {n : Nat} {c : κ} : ∀ {l : List Int} {v : List (Option κ)}, v.length = 2 ^ n → (∃ e ∈ l, ¬ (-(2 : Int) ^ n ≤ e ∧ e < 2 ^ n)) →
    storeColors v (c, l) = .error .indexError
  | [], v, _, h => by simp at h
  | e :: l, v, hv, h => by
    by_cases he : -(2 : Int) ^ n ≤ e ∧ e < 2 ^ n
    · obtain ⟨u, u1, u2, _⟩ := storeColor_spec (c := c) hv he
      have ih := storeColors_error (c := c) (l := l) u2 (by
        obtain ⟨e', h1, h2⟩ := h
        rcases List.mem_cons.1 h1 with rfl | h1
        · exact absurd he h2
        · exact ⟨e', h1, h2⟩)
      unfold storeColors at ih ⊢
      rw [List.foldlM_cons]
      simp only at ih ⊢
      rw [u1]
      exact ih
    · unfold storeColors
      rw [List.foldlM_cons]
      simp only
      rw [storeColor_error hv he]
      rfl

theorem painted_nil {κ : Type} {n i : Nat} {c : κ} : ¬ Painted n ([] : Dict κ (List Int)) i c := by
  rintro ⟨a, b, d, h, _⟩
  simp at h

theorem painted_cons {κ : Type} {n i : Nat} {c : κ} {p : κ × List Int} {d : Dict κ (List Int)} :
    Painted n (p :: d) i c ↔ Painted n d i c ∨ (p.1 = c ∧ (∃ e ∈ p.2, Denotes n e i) ∧ ∀ q ∈ d, ∀ e ∈ q.2, ¬ Denotes n e i) := by
  constructor
  · rintro ⟨before, spots, after, h1, h2, h3⟩
    cases before with
    | nil =>
      rw [List.nil_append, List.cons.injEq] at h1
      obtain ⟨rfl, rfl⟩ := h1
      exact Or.inr ⟨rfl, h2, h3⟩
    | cons b before =>
      rw [List.cons_append, List.cons.injEq] at h1
      exact Or.inl ⟨before, spots, after, h1.2, h2, h3⟩
  · rintro (⟨before, spots, after, rfl, h2, h3⟩ | ⟨rfl, h2, h3⟩)
    · exact ⟨p :: before, spots, after, rfl, h2, h3⟩
    · exact ⟨[], p.2, d, rfl, h2, h3⟩

theorem exists_painted {κ : Type} {n i : Nat} {d : Dict κ (List Int)} : (∃ c, Painted n d i c) ↔ ∃ p ∈ d, ∃ e ∈ p.2, Denotes n e i := by
  classical
  constructor
  · rintro ⟨c, before, spots, after, rfl, h2, _⟩
    exact ⟨(c, spots), by simp, h2⟩
  · induction d with
    | nil => simp
    | cons p d ih =>
      rintro ⟨q, hq, h⟩
      by_cases hd : ∃ p ∈ d, ∃ e ∈ p.2, Denotes n e i
      · obtain ⟨c, hc⟩ := ih hd
        exact ⟨c, painted_cons.2 (Or.inl hc)⟩
      · rcases List.mem_cons.1 hq with rfl | hq
        · exact ⟨q.1, painted_cons.2 (Or.inr ⟨rfl, h, fun r hr e he hde => hd ⟨r, hr, e, he, hde⟩⟩)⟩
        · exact absurd ⟨q, hq, h⟩ hd

theorem colorLoop_spec {κ : Type} {n : Nat} : ∀ {d : Dict κ (List Int)} {v : List (Option κ)}, v.length = 2 ^ n → (∀ p ∈ d, ∀ e ∈ p.2, -(2 : Int) ^ n ≤ e ∧ e < 2 ^ n) →
    ∃ w, List.foldlM storeColors v d = .ok w ∧ w.length = 2 ^ n ∧ ∀ i < 2 ^ n, (∀ c, Painted n d i c → w[i]? = some (some c)) ∧ ((∀ c, ¬ Painted n d i c) → w[i]? = v[i]?)
  | [], v, hv, _ => ⟨v, rfl, hv, fun i _ => ⟨fun c h => absurd h painted_nil, fun _ => rfl⟩⟩
  | (c, l) :: d, v, hv, h => by
    obtain ⟨u, u1, u2, u3⟩ := storeColors_spec (c := c) hv (h (c, l) List.mem_cons_self)
    obtain ⟨w, w1, w2, w3⟩ := colorLoop_spec (d := d) u2 (fun p hp => h p (List.mem_cons_of_mem _ hp))
    refine ⟨w, ?_, w2, fun i hi => ⟨?_, ?_⟩⟩
    · rw [List.foldlM_cons, u1]
      exact w1
    · intro c' hc'
      rcases painted_cons.1 hc' with hc' | ⟨h1, h2, h3⟩
      · exact (w3 i hi).1 c' hc'
      · simp only at h1 h2
        rw [(w3 i hi).2 (fun c'' h'' => by
          obtain ⟨p, hp, e, he, hde⟩ := exists_painted.1 ⟨c'', h''⟩
          exact h3 p hp e he hde), (u3 i hi).1 h2, h1]
    · intro hno
      have hd : ∀ c', ¬ Painted n d i c' := fun c' h' => hno c' (painted_cons.2 (Or.inl h'))
      rw [(w3 i hi).2 hd, (u3 i hi).2]
      intro e he hde
      exact hno c (painted_cons.2 (Or.inr ⟨rfl, ⟨e, he, hde⟩, fun q hq e' he' hde' => by
        obtain ⟨c', hc'⟩ := exists_painted.2 ⟨q, hq, e', he', hde'⟩
        exact hd c' hc'⟩))

theorem colorLoop_error {κ : Type} {n : Nat} : ∀ {d : Dict κ (List Int)} {v : List (Option κ)}, v.length = 2 ^ n → (∃ p ∈ d, ∃ e ∈ p.2, ¬ (-(2 : Int) ^ n ≤ e ∧ e < 2 ^ n)) →
    List.foldlM storeColors v d = .error .indexError
  | [], v, _, h => by simp at h
  | (c, l) :: d, v, hv, h => by
    by_cases hl : ∀ e ∈ l, -(2 : Int) ^ n ≤ e ∧ e < 2 ^ n
    · obtain ⟨u, u1, u2, _⟩ := storeColors_spec (c := c) hv hl
      rw [List.foldlM_cons, u1]
      apply colorLoop_error u2
      obtain ⟨p, hp, e, he, h'⟩ := h
      rcases List.mem_cons.1 hp with rfl | hp
      · exact absurd (hl e he) h'
      · exact ⟨p, hp, e, he, h'⟩
    · push Not at hl
      obtain ⟨e, he, h'⟩ := hl
      rw [List.foldlM_cons, storeColors_error hv ⟨e, he, fun h => by have := h' h.1; omega⟩]
      rfl

theorem colorVector_spec {κ : Type} {n : Nat} {d : Dict κ (List Int)} (h : ∀ p ∈ d, ∀ e ∈ p.2, -(2 : Int) ^ n ≤ e ∧ e < 2 ^ n) :
    ∃ w, colorVector d n = .ok w ∧ w.length = 2 ^ n ∧ ∀ i < 2 ^ n, ∀ c, w[i]? = some (some c) ↔ Painted n d i c := by
  obtain ⟨w, w1, w2, w3⟩ := colorLoop_spec (d := d) (v := List.replicate (2 ^ n) none) (by simp) h
  refine ⟨w, w1, w2, fun i hi c => ⟨fun hc => ?_, (w3 i hi).1 c⟩⟩
  by_cases hp : ∃ c, Painted n d i c
  · obtain ⟨c', hc'⟩ := hp
    rw [(w3 i hi).1 c' hc'] at hc
    cases hc
    exact hc'
  · rw [(w3 i hi).2 (fun c hc => hp ⟨c, hc⟩), List.getElem?_replicate, if_pos hi] at hc
    cases hc

/-! ## collecting the places of each color -/

/-- the places of a color -/
def colorPlaces {κ : Type} [DecidableEq κ] (w : List (Option κ × Nat)) (c : κ) : List Nat := (w.filter fun p => decide (p.1 = some c)).map Prod.snd

theorem groupColors_spec {κ : Type} [DecidableEq κ] : ∀ (w : List (Option κ × Nat)) (d : Dict κ (List Nat)), d.keys.Nodup →
    (groupColors w d).keys.Nodup ∧ ∀ c, (groupColors w d).get? c = if colorPlaces w c = [] then d.get? c else some ((d.get? c).getD [] ++ colorPlaces w c)
  | [], d, hd => ⟨hd, fun c => by simp [groupColors, colorPlaces]⟩
  | (none, k) :: w, d, hd => by
    obtain ⟨h1, h2⟩ := groupColors_spec w d hd
    refine ⟨h1, fun c => ?_⟩
    rw [groupColors, h2]
    rw [show colorPlaces ((none, k) :: w) c = colorPlaces w c by unfold colorPlaces; rw [List.filter_cons_of_neg (by simp)]]
  | (some v, k) :: w, d, hd => by
    obtain ⟨h1, h2⟩ := groupColors_spec w (d.set v ((d.get? v).getD [] ++ [k])) (Dict.nodup_keys_set hd _ _)
    refine ⟨h1, fun c => ?_⟩
    rw [groupColors, h2, Dict.get?_set]
    by_cases hc : v = c
    · subst hc
      have : colorPlaces ((some v, k) :: w) v = k :: colorPlaces w v := by simp [colorPlaces]
      rw [this]
      by_cases hp : colorPlaces w v = [] <;> simp [hp]
    · have : colorPlaces ((some v, k) :: w) c = colorPlaces w c := by simp [colorPlaces, hc]
      rw [this]
      by_cases hp : colorPlaces w c = [] <;> simp [hp, hc]

theorem mem_colorPlaces {κ : Type} [DecidableEq κ] {w : List (Option κ)} {c : κ} {j : Nat} : j ∈ colorPlaces w.zipIdx c ↔ w[j]? = some (some c) := by
  unfold colorPlaces
  rw [List.mem_map]
  constructor
  · rintro ⟨⟨o, i⟩, h1, rfl⟩
    obtain ⟨h2, h3⟩ := List.mem_filter.1 h1
    rw [decide_eq_true_eq] at h3
    simp only at h3 ⊢
    rw [List.mem_zipIdx_iff_getElem?] at h2
    rw [← h3]
    exact h2
  · intro h
    exact ⟨(some c, j), List.mem_filter.2 ⟨List.mem_zipIdx_iff_getElem?.2 h, by simp⟩, rfl⟩

theorem colorPlaces_sorted {κ : Type} [DecidableEq κ] (w : List (Option κ)) (c : κ) : (colorPlaces w.zipIdx c).Pairwise (· < ·) := by
  have : colorPlaces w.zipIdx c = (w.zipIdx.filter fun p => decide (p.1 = some c)).map Prod.snd := rfl
  rw [this]
  apply List.Pairwise.sublist (List.Sublist.map Prod.snd List.filter_sublist)
  rw [List.zipIdx_map_snd]
  exact List.pairwise_lt_range'

/-! ## images -/

theorem image_iff {s : SG.SigPerm} (hs : SG.Finite s) {i j : Nat} : Image s i j ↔ ∀ x, j.testBit (SG.nabs (s.val x)) = (i.testBit x ^^ decide (s.val x < 0)) := by
  unfold Image
  rw [SG.value_eq_val hs]
  apply forall_congr'
  intro x
  unfold SG.nabs logicAbs inv
  by_cases h : s.val x < 0
  · rw [if_pos h, decide_eq_true h, Bool.xor_true]
    exact ⟨fun h' => h'.2 h, fun h' => ⟨fun h'' => absurd h (by omega), fun _ => h'⟩⟩
  · rw [if_neg h, decide_eq_false h, Bool.xor_false]
    exact ⟨fun h' => h'.1 (by omega), fun h' => ⟨fun _ => h', fun h'' => absurd h'' h⟩⟩

theorem image_get {s : SG.SigPerm} (hs : SG.Finite s) {q : Perm} (hq : ∀ n i, (q.get n).testBit (SG.nabs (s.val i)) = (n.testBit i ^^ decide (s.val i < 0))) {i j : Nat} :
    Image s i j ↔ j = q.get i := by
  rw [image_iff hs]
  constructor
  · intro h
    apply SG.number_ext hs.wf.signed
    intro x
    rw [h, hq]
  · rintro rfl
    exact fun x => hq i x

theorem fits_iff_val {s : SG.SigPerm} (hs : SG.Finite s) {n : Nat} : FitsBelow n s ↔ ∀ x, (x < n → SG.nabs (s.val x) < n) ∧ (n ≤ x → 0 ≤ s.val x) := by
  unfold FitsBelow
  rw [SG.value_eq_val hs]
  apply forall_congr'
  intro x
  apply and_congr _ Iff.rfl
  apply imp_congr Iff.rfl
  unfold SG.nabs logicAbs inv
  split <;> omega

theorem fits_iff {s : SG.SigPerm} (hs : SG.Finite s) {q : Perm} (hq : ∀ n i, (q.get n).testBit (SG.nabs (s.val i)) = (n.testBit i ^^ decide (s.val i < 0))) {n : Nat} :
    FitsBelow n s ↔ ∀ i < 2 ^ n, q.get i < 2 ^ n := by
  rw [fits_iff_val hs]
  have hsig := hs.wf.signed
  have hinj : Function.Injective fun x => SG.nabs (s.val x) := fun x y h => hsig.injective x y h
  have low : ∀ k j, k < 2 ^ n → n ≤ j → k.testBit j = false := fun k j hk hj =>
    Nat.testBit_lt_two_pow (lt_of_lt_of_le hk (Nat.pow_le_pow_right (by omega) hj))
  constructor
  · intro h i hi
    apply Nat.lt_pow_two_of_testBit
    intro j hj
    obtain ⟨x, rfl⟩ := hsig.surj j
    have hx : n ≤ x := by
      by_contra hx
      have := (h x).1 (by omega)
      omega
    rw [hq, decide_eq_false (by have := (h x).2 hx; omega), Bool.xor_false]
    exact low i x hi hx
  · intro h
    have h1 : ∀ x < n, SG.nabs (s.val x) < n := by
      intro x hx
      by_contra hc
      have hb := hq (if s.val x < 0 then 0 else 2 ^ x) x
      rw [low _ _ (h _ (by split; exact Nat.two_pow_pos n; exact Nat.pow_lt_pow_right (by omega) hx)) (by omega)] at hb
      by_cases hneg : s.val x < 0
      · simp [hneg] at hb
      · simp [hneg] at hb
    refine fun x => ⟨h1 x, fun hx => ?_⟩
    by_contra hc
    have hb := hq 0 x
    rw [Nat.zero_testBit, decide_eq_true (by omega), low _ _ (h 0 (Nat.two_pow_pos n))] at hb
    · cases hb
    · by_contra hl
      obtain ⟨y, hy, he⟩ := (Below.mk h1 hinj).surj (y := SG.nabs (s.val x)) (by omega)
      have := hinj he
      omega

/-! ## dictionaries of disjoint ascending lists -/

theorem sorted_dict_eq {κ : Type} [DecidableEq κ] {d e : Dict κ (List Nat)} (hd : d.keys.Nodup) (he : e.keys.Nodup)
    (h1 : ∀ c l, d.get? c = some l → l ≠ [] ∧ l.Pairwise (· < ·)) (h2 : ∀ c l, e.get? c = some l → l ≠ [] ∧ l.Pairwise (· < ·)) :
    d.eq e = true ↔ ∀ c j, j ∈ (d.get? c).getD [] ↔ j ∈ (e.get? c).getD [] := by
  rw [Dict.eq_iff hd he]
  constructor
  · intro h c j
    rw [h]
  · intro h c
    have hmem := h c
    cases hdc : d.get? c with
    | none =>
      cases hec : e.get? c with
      | none => rfl
      | some l' =>
        obtain ⟨j, hj⟩ := List.exists_mem_of_ne_nil l' (h2 c l' hec).1
        have := (hmem j).2 (by rw [hec]; exact hj)
        rw [hdc] at this
        cases this
    | some l =>
      cases hec : e.get? c with
      | none =>
        obtain ⟨j, hj⟩ := List.exists_mem_of_ne_nil l (h1 c l hdc).1
        have := (hmem j).1 (by rw [hdc]; exact hj)
        rw [hec] at this
        cases this
      | some l' =>
        congr 1
        rw [hdc, hec] at hmem
        exact (h1 c l hdc).2.eq_of_mem_iff (h2 c l' hec).2 hmem

theorem painted_unique {κ : Type} {n i : Nat} {d : Dict κ (List Int)} {c c' : κ} (h : Painted n d i c) (h' : Painted n d i c') : c = c' := by
  induction d with
  | nil => exact absurd h painted_nil
  | cons p d ih =>
    rcases painted_cons.1 h with h1 | ⟨h1, h2, h3⟩
    · rcases painted_cons.1 h' with h1' | ⟨_, _, h3'⟩
      · exact ih h1 h1'
      · obtain ⟨q, hq, e, he, hd⟩ := exists_painted.1 ⟨c, h1⟩
        exact absurd hd (h3' q hq e he)
    · rcases painted_cons.1 h' with h1' | ⟨h1', _, _⟩
      · obtain ⟨q, hq, e, he, hd⟩ := exists_painted.1 ⟨c', h1'⟩
        exact absurd hd (h3 q hq e he)
      · rw [← h1, h1']

/-- for disjoint lists of natural numbers the color is that of the list -/
theorem painted_disjoint {κ : Type} [DecidableEq κ] {n : Nat} {r : Dict κ (List Nat)} (hr : r.keys.Nodup)
    (hdis : ∀ c c' j, j ∈ (r.get? c).getD [] → j ∈ (r.get? c').getD [] → c = c') (hlt : ∀ c j, j ∈ (r.get? c).getD [] → j < 2 ^ n) {j : Nat} (hj : j < 2 ^ n) (c : κ) :
    Painted n (r.map fun p => (p.1, p.2.map Int.ofNat)) j c ↔ j ∈ (r.get? c).getD [] := by
  have hden : ∀ p ∈ r, ∀ e ∈ p.2.map Int.ofNat, Denotes n e j → j ∈ p.2 := by
    intro p hp e he hd
    obtain ⟨k, hk, rfl⟩ := List.mem_map.1 he
    have h1 : k < 2 ^ n := hlt p.1 k (by rw [Dict.mem_get? hr hp]; exact hk)
    have h2 : (j : Int) < 2 ^ n := by exact_mod_cast hj
    have : k = j := by
      rcases hd with h | h
      · exact Int.ofNat.inj h
      · have : (0 : Int) ≤ Int.ofNat k := Int.natCast_nonneg k
        omega
    rwa [← this]
  have fwd : ∀ c, Painted n (r.map fun p => (p.1, p.2.map Int.ofNat)) j c → j ∈ (r.get? c).getD [] := by
    rintro c ⟨before, spots, after, h1, ⟨e, he, hd⟩, _⟩
    have : (c, spots) ∈ r.map fun p => (p.1, p.2.map Int.ofNat) := by rw [h1]; simp
    obtain ⟨p, hp, hpe⟩ := List.mem_map.1 this
    obtain ⟨rfl, rfl⟩ := Prod.mk.inj hpe
    rw [Dict.mem_get? hr hp]
    exact hden p hp e he hd
  refine ⟨fwd c, fun h => ?_⟩
  cases hg : r.get? c with
  | none => rw [hg] at h; cases h
  | some l =>
    have h' := h
    rw [hg] at h'
    obtain ⟨c', hc'⟩ := (exists_painted (n := n) (i := j) (d := r.map fun p => (p.1, p.2.map Int.ofNat))).2
      ⟨(c, l.map Int.ofNat), List.mem_map.2 ⟨(c, l), Dict.get?_mem hg, rfl⟩, Int.ofNat j, List.mem_map.2 ⟨j, h', rfl⟩, Or.inl rfl⟩
    rw [hdis c c' j h (fwd c' hc')]
    exact hc'

/-! ## the theorems -/

/-- what the call does for a signed permutation that fits -/
theorem colors_spec {κ : Type} [DecidableEq κ] {n : Nat} {d : Dict κ (List Int)} (h : ∀ p ∈ d, ∀ e ∈ p.2, -(2 : Int) ^ n ≤ e ∧ e < 2 ^ n) {s : SG.SigPerm} (hs : SG.Finite s)
    (hf : FitsBelow n s) : ∃ r, applySigpermToColors d n (.sigperm s) = .ok r ∧ r.keys.Nodup ∧
      (∀ c l, r.get? c = some l → l ≠ [] ∧ l.Pairwise (· < ·)) ∧ ∀ c j, j ∈ (r.get? c).getD [] ↔ ∃ i < 2 ^ n, Painted n d i c ∧ Image s i j := by
  obtain ⟨q, q1, q2, _, _, q5⟩ := SG.schoute_spec hs.wf
  obtain ⟨w, w1, w2, w3⟩ := colorVector_spec h
  have hb := (fits_iff hs q5).1 hf
  obtain ⟨u, u1, u2, u3, u4⟩ := applyOnVector_spec q2 w (by rw [w2]; exact hb)
  obtain ⟨g1, g2⟩ := groupColors_spec u.zipIdx [] (by simp [Dict.keys])
  refine ⟨groupColors u.zipIdx [], ?_, g1, ?_, ?_⟩
  · unfold applySigpermToColors
    rw [show schouteOf (.sigperm s) = .ok s.schoutePerm from rfl]
    simp only [bind, Except.bind, w1, q1, u1]
    rfl
  · intro c l hl
    rw [g2] at hl
    split at hl
    · cases hl
    · next hne =>
      cases hl
      exact ⟨by simpa [Dict.get?] using hne, by simpa [Dict.get?] using colorPlaces_sorted u c⟩
  · intro c j
    have hm : j ∈ ((groupColors u.zipIdx []).get? c).getD [] ↔ j ∈ colorPlaces u.zipIdx c := by
      rw [g2]
      split
      · next he => rw [he]; simp [Dict.get?]
      · simp [Dict.get?]
    rw [hm, mem_colorPlaces]
    have hsurj : j < 2 ^ n → ∃ i < 2 ^ n, q.get i = j := by
      intro hj
      have hinj : Function.Injective q.get := fun a b hab => by
        apply Nat.eq_of_testBit_eq
        intro x
        have h1 := q5 a x
        have h2 := q5 b x
        rw [hab, h2] at h1
        exact (Bool.xor_left_inj.1 h1).symm
      exact (Below.mk hb hinj).surj hj
    constructor
    · intro hj
      have hlt : j < 2 ^ n := by
        have := (List.getElem?_eq_some_iff.1 hj).1
        omega
      obtain ⟨i, hi, rfl⟩ := hsurj hlt
      rw [u3 i (by omega)] at hj
      exact ⟨i, hi, (w3 i hi c).1 hj, (image_get hs q5).2 rfl⟩
    · rintro ⟨i, hi, hp, him⟩
      rw [(image_get hs q5).1 him, u3 i (by omega)]
      exact (w3 i hi c).2 hp

/-- **C139.** Each color gets the ascending list of the images of the places that had this color. -/
theorem C139_colors {κ : Type} [DecidableEq κ] (n : Nat) (d : Dict κ (List Int)) (h : ∀ p ∈ d, ∀ e ∈ p.2, -(2 : Int) ^ n ≤ e ∧ e < 2 ^ n) (s : SG.SigPerm)
    (hs : SG.Finite s) (hf : FitsBelow n s) :
    ∃ r, applySigpermToColors d n (.sigperm s) = .ok r ∧ r.keys.Nodup ∧ (∀ c, c ∈ r.keys ↔ ∃ i < 2 ^ n, Painted n d i c) ∧
      ∀ c l, r.get? c = some l → l.Pairwise (· < ·) ∧ ∀ j, j ∈ l ↔ ∃ i < 2 ^ n, Painted n d i c ∧ Image s i j := by
  obtain ⟨r, r1, r2, r3, r4⟩ := colors_spec h hs hf
  obtain ⟨q, q1, q2, _, _, q5⟩ := SG.schoute_spec hs.wf
  refine ⟨r, r1, r2, fun c => ?_, fun c l hl => ⟨(r3 c l hl).2, fun j => by rw [← r4, hl]; rfl⟩⟩
  rw [Dict.mem_keys_iff]
  constructor
  · rintro ⟨l, hl⟩
    obtain ⟨j, hj⟩ := List.exists_mem_of_ne_nil l (r3 c l hl).1
    obtain ⟨i, hi, hp, _⟩ := (r4 c j).1 (by rw [hl]; exact hj)
    exact ⟨i, hi, hp⟩
  · rintro ⟨i, hi, hp⟩
    have := (r4 c (q.get i)).2 ⟨i, hi, hp, (image_get hs q5).2 rfl⟩
    cases hg : r.get? c with
    | none => rw [hg] at this; cases this
    | some l => exact ⟨l, rfl⟩

/-- **C139.** Each other call fails with an `IndexError`. -/
theorem C139_error {κ : Type} [DecidableEq κ] (n : Nat) (d : Dict κ (List Int)) (s : SG.SigPerm) (hs : SG.Finite s)
    (h : ¬ ((∀ p ∈ d, ∀ e ∈ p.2, -(2 : Int) ^ n ≤ e ∧ e < 2 ^ n) ∧ FitsBelow n s)) : applySigpermToColors d n (.sigperm s) = .error .indexError := by
  obtain ⟨q, q1, q2, _, _, q5⟩ := SG.schoute_spec hs.wf
  unfold applySigpermToColors
  rw [show schouteOf (.sigperm s) = .ok s.schoutePerm from rfl]
  by_cases hd : ∀ p ∈ d, ∀ e ∈ p.2, -(2 : Int) ^ n ≤ e ∧ e < 2 ^ n
  · obtain ⟨w, w1, w2, _⟩ := colorVector_spec hd
    have hf : ¬ FitsBelow n s := fun hf => h ⟨hd, hf⟩
    rw [fits_iff hs q5] at hf
    simp only [bind, Except.bind, w1, q1, applyOnVector_error q2 w (by rw [w2]; exact hf)]
  · have : colorVector d n = .error .indexError := by
      apply colorLoop_error (n := n) (by simp)
      push Not at hd
      obtain ⟨p, hp, e, he, h'⟩ := hd
      exact ⟨p, hp, e, he, fun hc => by have := h' hc.1; omega⟩
    simp only [bind, Except.bind, this]

/-- **C139.** A signed permutation of at most `n` places fits. -/
theorem C139_fits (n : Nat) (s : SG.SigPerm) (hs : SG.Finite s) (h : s.length ≤ n) : FitsBelow n s := by
  rw [fits_iff_val hs]
  have := hs.wf.signed.mono h
  exact fun x => ⟨this.lt x, fun hx => by rw [this.fix x hx]; omega⟩

/-- **C139.** A list is accepted if it describes a signed permutation; then it has the effect of the corresponding object. -/
theorem C139_list {κ : Type} [DecidableEq κ] (n : Nat) (d : Dict κ (List Int)) (l : List Int) :
    ((l.map (fun z => if z < 0 then (-z - 1).toNat else z.toNat)).Perm (List.range l.length) →
      ∃ s, SG.new { sequence := some l } = .ok s ∧ SG.Finite s ∧ applySigpermToColors d n (.list l) = applySigpermToColors d n (.sigperm s)) ∧
    (¬ (l.map (fun z => if z < 0 then (-z - 1).toNat else z.toNat)).Perm (List.range l.length) → applySigpermToColors d n (.list l) = .error .sequenceError) := by
  constructor
  · intro h
    obtain ⟨s, s1, s2, _⟩ := (SG.C31_of_sequence l).1 h
    refine ⟨s, s1, s2, ?_⟩
    unfold applySigpermToColors
    rw [show schouteOf (.list l) = .ok s.schoutePerm by simp only [schouteOf, bind, Except.bind]; rw [s1]; rfl]
    rfl
  · intro h
    have := (SG.C31_of_sequence l).2 h
    unfold applySigpermToColors
    rw [show schouteOf (.list l) = .error .sequenceError by simp only [schouteOf, bind, Except.bind]; rw [this]]
    rfl

theorem applyOnVector_congr {α : Type} {p q : Perm} (hp : Constructed p) (hq : Constructed q) (h : ∀ i, p.get i = q.get i) (v : List α) : p.applyOnVector v = q.applyOnVector v := by
  by_cases hv : ∀ i < v.length, p.get i < v.length
  · obtain ⟨w, w1, w2, w3, _⟩ := applyOnVector_spec hp v hv
    obtain ⟨u, u1, u2, u3, _⟩ := applyOnVector_spec hq v (fun i hi => by rw [← h]; exact hv i hi)
    rw [w1, u1]
    congr 1
    apply List.ext_getElem?
    intro j
    by_cases hj : j < v.length
    · obtain ⟨i, hi, rfl⟩ := (Below.mk hv (hp.wf.get_bijective.1)).surj hj
      rw [w3 i hi, h, u3 i hi]
    · rw [List.getElem?_eq_none (by omega), List.getElem?_eq_none (by omega)]
  · rw [applyOnVector_error hp v hv, applyOnVector_error hq v (fun hq => hv fun i hi => by rw [h]; exact hq i hi)]

/-- **C139.** A finite `Perm` has the effect of the signed permutation without negations. -/
theorem C139_perm {κ : Type} [DecidableEq κ] (n : Nat) (d : Dict κ (List Int)) (p : Perm) (hp : Constructed p) (hf : p.perilen = none) :
    ∃ s, SG.new { valneg := some (.binv ⟨[]⟩), perm := some (.perm p) } = .ok s ∧ SG.Finite s ∧ (∀ i, s.value i = p.get i) ∧
      applySigpermToColors d n (.perm p) = applySigpermToColors d n (.sigperm s) := by
  obtain ⟨s, s1, s2, s3, _⟩ := SG.C31_valneg ⟨[]⟩ p hp hf
  obtain ⟨a, a1, a2, _⟩ := SG.schoute_spec s2.wf
  obtain ⟨b, b1, b2, _⟩ := SG.C135_perm p hp
  obtain ⟨s', a', b', s1', a1', b1', hab⟩ := SG.C135_unsigned p hp hf
  rw [s1] at s1'
  cases s1'
  rw [a1] at a1'
  cases a1'
  rw [b1] at b1'
  cases b1'
  refine ⟨s, s1, s2, fun i => by rw [s3]; simp [SG.testBit_vector], ?_⟩
  unfold applySigpermToColors
  rw [show schouteOf (.sigperm s) = .ok s.schoutePerm from rfl, show schouteOf (.perm p) = .ok (SG.permSchoutePerm p) from rfl]
  simp only [bind, Except.bind, a1, b1]
  cases colorVector d n with
  | error e => rfl
  | ok v =>
    simp only
    rw [applyOnVector_congr a2 b2 ((C05_eq_extensional a b a2 b2).1 hab)]

/-- **C139.** Two calls have the effect of one call with the product of the signed permutations. -/
theorem C139_composition {κ : Type} [DecidableEq κ] (n : Nat) (d : Dict κ (List Int)) (h : ∀ p ∈ d, ∀ e ∈ p.2, -(2 : Int) ^ n ≤ e ∧ e < 2 ^ n) (s t : SG.SigPerm)
    (hs : SG.Finite s) (ht : SG.Finite t) (hfs : FitsBelow n s) (hft : FitsBelow n t) :
    ∃ r u ts r', applySigpermToColors d n (.sigperm s) = .ok r ∧ applySigpermToColors (r.map fun p => (p.1, p.2.map Int.ofNat)) n (.sigperm t) = .ok u ∧
      t.mul s = .ok ts ∧ applySigpermToColors d n (.sigperm ts) = .ok r' ∧ u.keys.Nodup ∧ r'.keys.Nodup ∧ u.eq r' = true := by
  obtain ⟨ts, m1, m2, _, m3, m4⟩ := SG.mul_spec ht.wf hs.wf
  obtain ⟨qs, _, _, _, _, a5⟩ := SG.schoute_spec hs.wf
  obtain ⟨qt, _, _, _, _, b5⟩ := SG.schoute_spec ht.wf
  obtain ⟨qq, _, _, _, _, c5⟩ := SG.schoute_spec m2
  have hq : ∀ i, qq.get i = qt.get (qs.get i) := by
    intro i
    apply SG.number_ext m2.signed
    intro x
    rw [c5, m4]
    simp only
    rw [SG.nabs_ext, b5, a5, Bool.xor_assoc]
    congr 1
    have := SG.ext_neg t.val (s.val x)
    by_cases h1 : s.val x < 0 <;> by_cases h2 : t.val (SG.nabs (s.val x)) < 0 <;> simp [h1, h2] at this ⊢ <;> omega
  have hsb := (fits_iff hs a5).1 hfs
  have hft' : FitsBelow n ts := (fits_iff m3 c5).2 fun i hi => by rw [hq]; exact (fits_iff ht b5).1 hft _ (hsb i hi)
  obtain ⟨r, r1, r2, r3, r4⟩ := colors_spec h hs hfs
  obtain ⟨r', r1', r2', r3', r4'⟩ := colors_spec h m3 hft'
  have hlt : ∀ c j, j ∈ (r.get? c).getD [] → j < 2 ^ n := by
    intro c j hj
    obtain ⟨i, hi, _, him⟩ := (r4 c j).1 hj
    rw [(image_get hs a5).1 him]
    exact hsb i hi
  obtain ⟨u, u1, u2, u3, u4⟩ := colors_spec (d := r.map fun p => (p.1, p.2.map Int.ofNat)) (n := n) (by
    intro p hp e he
    obtain ⟨p', hp', rfl⟩ := List.mem_map.1 hp
    obtain ⟨j, hj, rfl⟩ := List.mem_map.1 he
    have : j < 2 ^ n := hlt p'.1 j (by rw [Dict.mem_get? r2 hp']; exact hj)
    have : (j : Int) < 2 ^ n := by exact_mod_cast this
    constructor
    · have : (0 : Int) ≤ 2 ^ n := by positivity
      have : (0 : Int) ≤ Int.ofNat j := Int.natCast_nonneg j
      omega
    · exact this) ht hft
  have hget : ∀ i j, Image s i j ↔ j = qs.get i := fun i j => image_get hs a5
  have hinj : Function.Injective qs.get := fun a b hab => by
    apply Nat.eq_of_testBit_eq
    intro x
    have h1 := a5 a x
    have h2 := a5 b x
    rw [hab, h2] at h1
    exact (Bool.xor_left_inj.1 h1).symm
  have hdis : ∀ c c' j, j ∈ (r.get? c).getD [] → j ∈ (r.get? c').getD [] → c = c' := by
    intro c c' j h1 h2
    obtain ⟨i, hi, hpi, hij⟩ := (r4 c j).1 h1
    obtain ⟨i', hi', hpi', hij'⟩ := (r4 c' j).1 h2
    rw [hget] at hij hij'
    rw [hij] at hij'
    cases hinj hij'
    exact painted_unique hpi hpi'
  refine ⟨r, u, ts, r', r1, u1, m1, r1', u2, r2', (sorted_dict_eq u2 r2' u3 r3').2 fun c k => ?_⟩
  rw [u4, r4']
  constructor
  · rintro ⟨j, hj, hp, him⟩
    obtain ⟨i, hi, hpi, hij⟩ := (r4 c j).1 ((painted_disjoint r2 hdis hlt hj c).1 hp)
    refine ⟨i, hi, hpi, (image_get m3 c5).2 ?_⟩
    rw [hq, ← (hget i j).1 hij, (image_get ht b5).1 him]
  · rintro ⟨i, hi, hpi, hik⟩
    have hj := hsb i hi
    refine ⟨qs.get i, hj, (painted_disjoint r2 hdis hlt hj c).2 ((r4 c _).2 ⟨i, hi, hpi, (hget _ _).2 rfl⟩), (image_get ht b5).2 ?_⟩
    rw [← hq, (image_get m3 c5).1 hik]

/-- **C139.** With the neutral signed permutation a dictionary of disjoint ascending lists is unchanged. -/
theorem C139_neutral {κ : Type} [DecidableEq κ] (n : Nat) (d : Dict κ (List Nat)) (hd : d.keys.Nodup) (h1 : ∀ p ∈ d, p.2 ≠ [] ∧ p.2.Pairwise (· < ·) ∧ ∀ i ∈ p.2, i < 2 ^ n)
    (h2 : ∀ p ∈ d, ∀ p' ∈ d, ∀ i ∈ p.2, i ∈ p'.2 → p = p') (s : SG.SigPerm) (hs : SG.Finite s) (hn : s.neutral = true) :
    ∃ r, applySigpermToColors (d.map fun p => (p.1, p.2.map Int.ofNat)) n (.sigperm s) = .ok r ∧ r.eq d = true := by
  have hv : ∀ x, s.val x = x := by
    intro x
    rw [← SG.value_eq_val hs]
    exact (SG.C62_flags s hs).1.1 hn x
  have hf : FitsBelow n s := (fits_iff_val hs).2 fun x => by
    rw [hv, SG.nabs_nat]
    exact ⟨id, fun _ => Int.natCast_nonneg x⟩
  have hmem : ∀ c j, j ∈ (d.get? c).getD [] → ∃ l, (c, l) ∈ d ∧ j ∈ l := by
    intro c j hj
    cases hg : d.get? c with
    | none => rw [hg] at hj; cases hj
    | some l => rw [hg] at hj; exact ⟨l, Dict.get?_mem hg, hj⟩
  have hlt : ∀ c j, j ∈ (d.get? c).getD [] → j < 2 ^ n := by
    intro c j hj
    obtain ⟨l, hl, hj⟩ := hmem c j hj
    exact (h1 _ hl).2.2 j hj
  obtain ⟨r, r1, r2, r3, r4⟩ := colors_spec (d := d.map fun p => (p.1, p.2.map Int.ofNat)) (n := n) (by
    intro p hp e he
    obtain ⟨p', hp', rfl⟩ := List.mem_map.1 hp
    obtain ⟨j, hj, rfl⟩ := List.mem_map.1 he
    have : (j : Int) < 2 ^ n := by exact_mod_cast (h1 p' hp').2.2 j hj
    constructor
    · have : (0 : Int) ≤ 2 ^ n := by positivity
      have : (0 : Int) ≤ Int.ofNat j := Int.natCast_nonneg j
      omega
    · exact this) hs hf
  refine ⟨r, r1, (sorted_dict_eq r2 hd r3 (fun c l hl => ⟨(h1 _ (Dict.get?_mem hl)).1, (h1 _ (Dict.get?_mem hl)).2.1⟩)).2 fun c j => ?_⟩
  have hdis : ∀ c c' j, j ∈ (d.get? c).getD [] → j ∈ (d.get? c').getD [] → c = c' := by
    intro c c' j a b
    obtain ⟨l, hl, hj⟩ := hmem c j a
    obtain ⟨l', hl', hj'⟩ := hmem c' j b
    exact congrArg Prod.fst (h2 _ hl _ hl' j hj hj')
  have him : ∀ i j, Image s i j ↔ i = j := by
    intro i j
    rw [image_iff hs]
    simp only [hv, SG.nabs_nat]
    constructor
    · intro h
      apply Nat.eq_of_testBit_eq
      intro x
      rw [h x, decide_eq_false (by omega), Bool.xor_false]
    · rintro rfl x
      rw [decide_eq_false (by omega), Bool.xor_false]
  rw [r4]
  constructor
  · rintro ⟨i, hi, hp, h⟩
    rw [(him i j).1 h] at hp hi
    exact (painted_disjoint hd hdis hlt hi c).1 hp
  · intro hj
    exact ⟨j, hlt c j hj, (painted_disjoint hd hdis hlt (hlt c j hj) c).2 hj, (him j j).2 rfl⟩

/-- **C139.** If the places of a color are the true places of a Boolean function, then the new ones are those of the function that `apply` gives. -/
theorem C139_function {κ : Type} [DecidableEq κ] (n : Nat) (d : Dict κ (List Int)) (h : ∀ p ∈ d, ∀ e ∈ p.2, -(2 : Int) ^ n ≤ e ∧ e < 2 ^ n) (s : SG.SigPerm)
    (hs : SG.Finite s) (hfit : FitsBelow n s) (c : κ) (f : Boolf) (hf : Reach f) (hc : ∀ i < 2 ^ n, f.getItem i = .ok true ↔ Painted n d i c) :
    ∃ r g, applySigpermToColors d n (.sigperm s) = .ok r ∧ f.applySigperm (.sigperm s) = .ok g ∧ ∀ j < 2 ^ n, g.getItem j = .ok true ↔ j ∈ (r.get? c).getD [] := by
  obtain ⟨r, r1, r2, r3, r4⟩ := colors_spec h hs hfit
  obtain ⟨g, g1, g2, g3, g4⟩ := action hf.obj hs
  refine ⟨r, g, r1, g1, fun j hj => ?_⟩
  obtain ⟨q, q1, q2, _, _, q5⟩ := SG.schoute_spec hs.wf
  have hb := (fits_iff hs q5).1 hfit
  have hinj : Function.Injective q.get := fun a b hab => by
    apply Nat.eq_of_testBit_eq
    intro x
    have h1 := q5 a x
    have h2 := q5 b x
    rw [hab, h2] at h1
    exact (Bool.xor_left_inj.1 h1).symm
  have key : ∀ i < 2 ^ n, g.getItem (q.get i) = f.getItem i := by
    intro i hi
    rw [getItem_eq g2.good.toSound, getItem_eq hf.canon.toSound, g4]
    refine congrArg Except.ok (Boolf.eval_congr fun x hx => ?_)
    unfold lit
    have := q5 i x
    unfold SG.nabs at this
    rw [SG.value_eq_val hs, this, Bool.xor_assoc, Bool.xor_self, Bool.xor_false]
  rw [r4]
  constructor
  · intro hg
    obtain ⟨i, hi, rfl⟩ := (Below.mk hb hinj).surj hj
    rw [key i hi] at hg
    exact ⟨i, hi, (hc i hi).1 hg, (image_get hs q5).2 rfl⟩
  · rintro ⟨i, hi, hp, him⟩
    rw [(image_get hs q5).1 him, key i hi]
    exact (hc i hi).2 hp

/-- the example of the test -/
example : applySigpermToColors [('r', [6, 7, 10, 11]), ('g', [4, 5, 8, 9]), ('y', [1, 12])] 4 (.list [0, -2, -3, 3]) =
    .ok [('r', [0, 1, 12, 13]), ('g', [2, 3, 14, 15]), ('y', [7, 10])] := by decide +kernel

/-- later colors replace earlier ones, negative places count from the end, and a list without remaining places is dropped -/
example : applySigpermToColors [('r', [3]), ('g', [0, -1])] 2 (.list [1, 0]) = .ok [('g', [0, 3])] := by decide +kernel

/-- an exchange of higher places has no effect, but a negation of a higher place is rejected -/
example : applySigpermToColors [('r', [1])] 1 (.list [0, 2, 1]) = .ok [('r', [1])] ∧ applySigpermToColors [('r', [1])] 1 (.list [0, -2]) = .error .indexError := by decide +kernel

end Verif.BF
