import Verif.Perm.Props

/-!
# Property C03 for all lists of cycles, also overlapping ones
-/

namespace Verif.P
open Verif.Py

/-- the pairs of an entry and its cyclic successor, cycle after cycle -/
def moves (cs : List (List Nat)) : List (Nat × Nat) := cs.flatMap fun c => List.zip c (c.rotate 1)

theorem cycleDict_zip (c : List Nat) : cycleDict c = List.zip c (c.rotate 1) :=
  List.zip_of_prod (keys_cycleDict c) (values_cycleDict c)

theorem get?_reverse_iff {l : List (Nat × Nat)} {x y : Nat} :
    Dict.get? l.reverse x = some y ↔ ∃ A B, l = A ++ (x, y) :: B ∧ ∀ kv ∈ B, kv.1 ≠ x := by
  induction l using List.reverseRecOn with
  | nil => simp
  | append_singleton l kv ih =>
    rw [List.reverse_append, List.reverse_singleton, List.singleton_append, Dict.get?_cons]
    by_cases h : kv.1 = x
    · rw [if_pos h]
      constructor
      · intro e
        refine ⟨l, [], ?_, by simp⟩
        rw [← h, ← Option.some.inj e]
      · rintro ⟨A, B, h1, h2⟩
        rcases List.eq_nil_or_concat B with rfl | ⟨B, b, rfl⟩
        · have := (List.append_inj_right' h1 rfl)
          rw [List.singleton_inj] at this
          rw [this]
        · exfalso
          have h3 : l ++ [kv] = (A ++ (x, y) :: B) ++ [b] := by simpa using h1
          have := (List.append_inj_right' h3 rfl)
          rw [List.singleton_inj] at this
          exact h2 b (by simp) (this ▸ h)
    · rw [if_neg h, ih]
      constructor
      · rintro ⟨A, B, h1, h2⟩
        refine ⟨A, B ++ [kv], by rw [h1]; simp, fun b hb => ?_⟩
        rcases List.mem_append.1 hb with hb | hb
        · exact h2 b hb
        · rw [List.mem_singleton.1 hb]; exact h
      · rintro ⟨A, B, h1, h2⟩
        rcases List.eq_nil_or_concat B with rfl | ⟨B, b, rfl⟩
        · have := (List.append_inj_right' h1 rfl)
          rw [List.singleton_inj] at this
          rw [this] at h
          exact absurd rfl h
        · have h3 : l ++ [kv] = (A ++ (x, y) :: B) ++ [b] := by simpa using h1
          exact ⟨A, B, List.append_inj_left' h3 rfl, fun c hc => h2 c (by simp [hc])⟩

theorem finish_get (m : Dict Nat Nat) : ∃ p, finish m none = .ok p ∧ p.get = dictFun m ∧ p.mapping = m ∧ p.perilen = none := by
  unfold finish
  by_cases h : m = []
  · subst h
    exact ⟨neutralPerm, by simp, rfl, rfl, rfl⟩
  · rw [if_neg h]
    exact ⟨_, rfl, rfl, rfl, rfl⟩

theorem mkPerm_cycles (cs : List (List Nat)) :
    ∃ p, mkPerm (.cycles cs) = .ok p ∧ p.mapping = Dict.ofPairs ((moves cs).filter fun kv => kv.1 ≠ kv.2) ∧ p.get = dictFun p.mapping := by
  obtain ⟨p, p1, p2, p3, _⟩ := finish_get (Dict.ofPairs ((moves cs).filter fun kv => kv.1 ≠ kv.2))
  refine ⟨p, ?_, p3, by rw [p2, p3]⟩
  have : moves cs = cs.flatMap cycleDict := by
    unfold moves
    congr 1
    funext c
    exact (cycleDict_zip c).symm
  unfold mkPerm argMapping
  rw [this] at p1
  exact p1

/-- **C03** Every list of cycles is accepted.  A number is sent to the successor that the last pair moving it (to another number) names, and
fixed if there is none. -/
theorem C03_any_cycles (cs : List (List Nat)) :
    ∃ p, mkPerm (.cycles cs) = .ok p ∧
      (∀ x y, x ≠ y → (p.get x = y ↔ ∃ A B, moves cs = A ++ (x, y) :: B ∧ ∀ kv ∈ B, kv.1 = x → kv.2 = x)) ∧
      (∀ x, p.get x = x ↔ ∀ kv ∈ moves cs, kv.1 = x → kv.2 = x) := by
  obtain ⟨p, p1, p2, p3⟩ := mkPerm_cycles cs
  have hget : ∀ x, p.get x = (Dict.get? ((moves cs).filter fun kv => kv.1 ≠ kv.2).reverse x).getD x := by
    intro x; rw [p3, p2, dictFun, Dict.get?_ofPairs]
  have hmem : ∀ x y, Dict.get? ((moves cs).filter fun kv => kv.1 ≠ kv.2).reverse x = some y → x ≠ y ∧ (x, y) ∈ moves cs := by
    intro x y h
    have := Dict.get?_mem h
    rw [List.mem_reverse, List.mem_filter] at this
    exact ⟨by simpa using this.2, this.1⟩
  have hsome : ∀ x y, Dict.get? ((moves cs).filter fun kv => kv.1 ≠ kv.2).reverse x = some y ↔
      x ≠ y ∧ ∃ A B, moves cs = A ++ (x, y) :: B ∧ ∀ kv ∈ B, kv.1 = x → kv.2 = x := by
    intro x y
    generalize moves cs = L
    constructor
    · intro h
      obtain ⟨A, B, h1, h2⟩ := get?_reverse_iff.1 h
      obtain ⟨A', B', e1, e2, e3⟩ := List.filter_eq_append_iff.1 h1
      obtain ⟨C, D, f1, f2, f3, f4⟩ := List.filter_eq_cons_iff.1 e3
      have hxy : x ≠ y := by simpa using f3
      refine ⟨hxy, A' ++ C, D, by rw [e1, f1]; simp, fun kv hkv hk => ?_⟩
      by_contra hc
      have : kv ∈ B := by
        rw [← f4, List.mem_filter]
        exact ⟨hkv, by simpa [hk] using Ne.symm hc⟩
      exact h2 kv this hk
    · rintro ⟨hxy, A, B, h1, h2⟩
      rw [get?_reverse_iff]
      refine ⟨A.filter fun kv => kv.1 ≠ kv.2, B.filter fun kv => kv.1 ≠ kv.2, ?_, fun kv hkv hk => ?_⟩
      · rw [h1, List.filter_append, List.filter_cons_of_pos (by simpa using hxy)]
      · rw [List.mem_filter] at hkv
        have := h2 kv hkv.1 hk
        simp [hk, this] at hkv
  refine ⟨p, p1, fun x y hxy => ?_, fun x => ?_⟩
  · rw [hget]
    cases h : Dict.get? ((moves cs).filter fun kv => kv.1 ≠ kv.2).reverse x with
    | none =>
      constructor
      · intro e; exact absurd e hxy
      · intro e
        rw [(hsome x y).2 ⟨hxy, e⟩] at h
        cases h
    | some z =>
      constructor
      · intro e
        obtain rfl : z = y := e
        exact ((hsome x z).1 h).2
      · intro e
        rw [(hsome x y).2 ⟨hxy, e⟩] at h
        exact (Option.some.inj h).symm
  · rw [hget]
    cases h : Dict.get? ((moves cs).filter fun kv => kv.1 ≠ kv.2).reverse x with
    | none =>
      refine ⟨fun _ kv hkv hk => ?_, fun _ => rfl⟩
      rw [Dict.get?_eq_none] at h
      by_contra hc
      apply h
      refine List.mem_map.2 ⟨kv, ?_, hk⟩
      rw [List.mem_reverse, List.mem_filter]
      exact ⟨hkv, by simpa [hk] using Ne.symm hc⟩
    | some z =>
      obtain ⟨h1, h2⟩ := hmem x z h
      constructor
      · intro e; exact absurd e.symm h1
      · intro e; exact absurd (e _ h2 rfl).symm h1

/-- **C03** The result is a permutation iff the constructor would have accepted the same mapping as a dict. -/
theorem C03_bijective_iff (cs : List (List Nat)) (p : Perm) (hp : mkPerm (.cycles cs) = .ok p) :
    (Function.Bijective p.get ↔ ∃ q, mkPerm (.dict p.mapping) = .ok q) ∧
    (¬ Function.Bijective p.get → mkPerm (.dict p.mapping) = .error .dictError) := by
  obtain ⟨p', p1, p2, p3⟩ := mkPerm_cycles cs
  rw [hp] at p1
  obtain rfl := Except.ok.inj p1
  have hn : (p.mapping.keys).Nodup := by rw [p2]; exact Dict.ofPairs_nodup _
  obtain ⟨c1, c2⟩ := C02_perm_of_dict p.mapping hn
  have key : Function.Bijective p.get → p.mapping.keys.Perm p.mapping.values := by
    intro hb
    have hv : p.mapping.values = p.mapping.keys.map p.get := by
      unfold Dict.values Dict.keys
      rw [List.map_map]
      apply List.map_congr_left
      intro kv hkv
      rw [p3]
      exact (dictFun_of_mem ((Dict.get?_iff_mem hn).2 hkv)).symm
    have hout : ∀ x, x ∉ p.mapping.keys → p.get x = x := fun x hx => by rw [p3]; exact dictFun_of_not_mem hx
    have hvn : (p.mapping.keys.map p.get).Nodup := hn.map hb.1
    rw [hv]
    apply List.Perm.symm
    apply List.Subperm.perm_of_length_le (List.subperm_of_subset hvn ?_) (by simp)
    intro y hy
    obtain ⟨x, hx, rfl⟩ := List.mem_map.1 hy
    by_contra hc
    have := hb.1 (hout _ hc)
    rw [this] at hc
    exact hc hx
  by_cases h : p.mapping.keys.Perm p.mapping.values
  · obtain ⟨q, q1, q2, q3⟩ := c1 h
    have e : q.get = p.get := funext fun i => by rw [q2, p3]; rfl
    rw [e] at q3
    exact ⟨⟨fun _ => ⟨q, q1⟩, fun _ => q3⟩, fun hc => absurd q3 hc⟩
  · refine ⟨⟨fun hb => absurd (key hb) h, ?_⟩, fun _ => c2 h⟩
    rintro ⟨q, hq⟩
    rw [c2 h] at hq
    cases hq

/-- overlapping cycles: the last pair counts, pairs of equal numbers do not -/
example : moves [[0, 1], [0, 2], [0]] = [(0, 1), (1, 0), (0, 2), (2, 0), (0, 0)] := by decide
example : ∃ p, mkPerm (.cycles [[0, 1], [0, 2], [0]]) = .ok p ∧ p.get 0 = 2 ∧ p.get 1 = 0 ∧ p.get 2 = 0 ∧
    mkPerm (.dict p.mapping) = .error .dictError := by
  refine ⟨_, rfl, by decide, by decide, by decide, by decide⟩
example : ∃ p, mkPerm (.cycles [[0, 1, 2], [0, 1], [2, 2]]) = .ok p ∧ p.get 2 = 0 := ⟨_, rfl, by decide⟩

end Verif.P
