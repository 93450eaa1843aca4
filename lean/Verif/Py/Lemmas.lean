import Verif.Py.Basic

namespace Verif.Py

theorem sorted_perm (l : List Nat) : (sorted l).Perm l := List.perm_insertionSort _ l

theorem sorted_pairwise (l : List Nat) : (sorted l).Pairwise (· ≤ ·) :=
  List.pairwise_insertionSort _ l

theorem eq_of_perm_of_le {l₁ l₂ : List Nat} (h : l₁.Perm l₂) (h₁ : l₁.Pairwise (· ≤ ·))
    (h₂ : l₂.Pairwise (· ≤ ·)) : l₁ = l₂ :=
  List.Perm.eq_of_pairwise (fun _ _ _ _ => Nat.le_antisymm) h₁ h₂ h

theorem sorted_eq_sorted {l₁ l₂ : List Nat} : sorted l₁ = sorted l₂ ↔ l₁.Perm l₂ := by
  constructor
  · intro h
    exact (sorted_perm l₁).symm.trans (h ▸ sorted_perm l₂)
  · intro h
    exact eq_of_perm_of_le (((sorted_perm l₁).trans h).trans (sorted_perm l₂).symm)
      (sorted_pairwise _) (sorted_pairwise _)

theorem sorted_eq_of_perm {l₁ l₂ : List Nat} (h : l₁.Perm l₂) (h₂ : l₂.Pairwise (· ≤ ·)) :
    sorted l₁ = l₂ :=
  eq_of_perm_of_le ((sorted_perm _).trans h) (sorted_pairwise _) h₂

theorem range_pairwise_le (n : Nat) : (List.range n).Pairwise (· ≤ ·) :=
  List.pairwise_le_range

theorem sorted_eq_range {l : List Nat} {n : Nat} : sorted l = List.range n ↔ l.Perm (List.range n) := by
  constructor
  · intro h; exact (sorted_perm l).symm.trans (h ▸ List.Perm.refl _)
  · intro h; exact sorted_eq_of_perm h (range_pairwise_le n)

theorem mem_sorted {l : List Nat} {a : Nat} : a ∈ sorted l ↔ a ∈ l := (sorted_perm l).mem_iff

namespace Dict
variable {α β : Type} [DecidableEq α]

omit [DecidableEq α] in
@[simp] theorem keys_nil : keys ([] : Dict α β) = [] := rfl
omit [DecidableEq α] in
@[simp] theorem keys_cons (p : α × β) (d : Dict α β) : keys (p :: d) = p.1 :: keys d := rfl
omit [DecidableEq α] in
@[simp] theorem values_nil : values ([] : Dict α β) = [] := rfl
omit [DecidableEq α] in
@[simp] theorem values_cons (p : α × β) (d : Dict α β) : values (p :: d) = p.2 :: values d := rfl

@[simp] theorem get?_nil (k : α) : get? ([] : Dict α β) k = none := rfl

theorem get?_cons (p : α × β) (d : Dict α β) (k : α) :
    get? (p :: d) k = if p.1 = k then some p.2 else get? d k := by
  cases p; rfl

theorem get?_eq_none {d : Dict α β} {k : α} : get? d k = none ↔ k ∉ keys d := by
  induction d with
  | nil => simp
  | cons p d ih =>
    rw [get?_cons, keys_cons, List.mem_cons]
    split
    · rename_i h; simp [h]
    · rename_i h
      rw [ih]
      constructor
      · rintro h1 (h2 | h2)
        · exact h h2.symm
        · exact h1 h2
      · intro h1 h2; exact h1 (Or.inr h2)

theorem get?_isSome {d : Dict α β} {k : α} : (get? d k).isSome ↔ k ∈ keys d := by
  rw [← not_iff_not, ← get?_eq_none]; simp

theorem get?_mem {d : Dict α β} {k : α} {v : β} (h : get? d k = some v) : (k, v) ∈ d := by
  induction d with
  | nil => simp at h
  | cons p d ih =>
    rw [get?_cons] at h
    split at h
    · rename_i h1
      obtain ⟨a, b⟩ := p
      simp at h h1; subst h1; subst h; simp
    · exact List.mem_cons_of_mem _ (ih h)

theorem mem_get? {d : Dict α β} (hd : (keys d).Nodup) {k : α} {v : β} (h : (k, v) ∈ d) :
    get? d k = some v := by
  induction d with
  | nil => simp at h
  | cons p d ih =>
    rw [keys_cons, List.nodup_cons] at hd
    rw [get?_cons]
    rcases List.mem_cons.1 h with h | h
    · subst h; simp
    · have hk : k ∈ keys d := List.mem_map.2 ⟨_, h, rfl⟩
      rw [if_neg, ih hd.2 h]
      rintro rfl; exact hd.1 hk

theorem get?_iff_mem {d : Dict α β} (hd : (keys d).Nodup) {k : α} {v : β} :
    get? d k = some v ↔ (k, v) ∈ d := ⟨get?_mem, mem_get? hd⟩

theorem mem_keys_iff {d : Dict α β} {k : α} : k ∈ keys d ↔ ∃ v, get? d k = some v := by
  rw [← get?_isSome, Option.isSome_iff_exists]

theorem mem_values_of_get? {d : Dict α β} {k : α} {v : β} (h : get? d k = some v) : v ∈ values d :=
  List.mem_map.2 ⟨_, get?_mem h, rfl⟩

theorem get?_set (d : Dict α β) (k : α) (v : β) (k' : α) :
    get? (set d k v) k' = if k = k' then some v else get? d k' := by
  induction d with
  | nil => simp [set, get?]
  | cons p d ih =>
    obtain ⟨a, b⟩ := p
    simp only [set]
    split
    · rename_i h; subst h; simp only [get?]; split <;> rfl
    · rename_i h
      simp only [get?, ih]
      split
      · rename_i h1; subst h1; rw [if_neg (fun h2 => h h2.symm)]
      · rfl

theorem keys_set_of_mem {d : Dict α β} {k : α} (v : β) (h : k ∈ keys d) : keys (set d k v) = keys d := by
  induction d with
  | nil => simp at h
  | cons p d ih =>
    obtain ⟨a, b⟩ := p
    simp only [set]
    split
    · rfl
    · rename_i h1
      rw [keys_cons, keys_cons, ih]
      rcases List.mem_cons.1 h with h | h
      · exact absurd h.symm h1
      · exact h

theorem set_of_not_mem {d : Dict α β} {k : α} (v : β) (h : k ∉ keys d) : set d k v = d ++ [(k, v)] := by
  induction d with
  | nil => rfl
  | cons p d ih =>
    obtain ⟨a, b⟩ := p
    rw [keys_cons, List.mem_cons, not_or] at h
    simp only [set]
    rw [if_neg (fun h1 => h.1 h1.symm), ih h.2]; rfl

omit [DecidableEq α] in
theorem keys_append (d e : Dict α β) : keys (d ++ e) = keys d ++ keys e := by simp [keys]

theorem nodup_keys_set {d : Dict α β} (hd : (keys d).Nodup) (k : α) (v : β) : (keys (set d k v)).Nodup := by
  by_cases h : k ∈ keys d
  · rw [keys_set_of_mem v h]; exact hd
  · rw [set_of_not_mem v h, keys_append]
    refine List.nodup_append.2 ⟨hd, by simp [keys], ?_⟩
    intro a ha b hb
    simp [keys] at hb
    subst hb
    rintro rfl
    exact h ha

theorem foldl_set_nodup (l : List (α × β)) (d : Dict α β) (hd : (keys d).Nodup) :
    (keys (l.foldl (fun d p => d.set p.1 p.2) d)).Nodup := by
  induction l generalizing d with
  | nil => exact hd
  | cons p l ih => exact ih _ (nodup_keys_set hd _ _)

theorem ofPairs_nodup (l : List (α × β)) : (keys (ofPairs l)).Nodup :=
  foldl_set_nodup l [] (by simp)

theorem foldl_set_of_nodup (l : List (α × β)) (d : Dict α β) (h : (keys d ++ keys l).Nodup) :
    l.foldl (fun d p => d.set p.1 p.2) d = d ++ l := by
  induction l generalizing d with
  | nil => simp
  | cons p l ih =>
    rw [List.foldl_cons, set_of_not_mem]
    · rw [ih, List.append_assoc]; · rfl
      rw [keys_append]
      simpa [keys] using h
    · intro hp
      rw [List.nodup_append] at h
      exact h.2.2 _ hp _ (by simp) rfl

theorem ofPairs_of_nodup {l : List (α × β)} (h : (keys l).Nodup) : ofPairs l = l := by
  unfold ofPairs
  rw [foldl_set_of_nodup l [] (by simpa using h)]; rfl

theorem get?_append (d e : Dict α β) (k : α) : get? (d ++ e) k = (get? d k).or (get? e k) := by
  induction d with
  | nil => simp
  | cons p d ih =>
    rw [List.cons_append, get?_cons, get?_cons]
    split
    · rfl
    · exact ih

theorem get?_foldl_set (l : List (α × β)) (d : Dict α β) (k : α) :
    get? (l.foldl (fun d p => d.set p.1 p.2) d) k = (get? l.reverse k).or (get? d k) := by
  induction l generalizing d with
  | nil => simp
  | cons p l ih =>
    rw [List.foldl_cons, ih, get?_set, List.reverse_cons, get?_append, Option.or_assoc]
    congr 1
    rw [get?_cons, get?_nil]
    split <;> rfl

theorem get?_ofPairs (l : List (α × β)) (k : α) : get? (ofPairs l) k = get? l.reverse k := by
  unfold ofPairs; rw [get?_foldl_set]; simp

theorem get?_erase {d : Dict α β} (hd : (keys d).Nodup) (k k' : α) :
    get? (erase d k) k' = if k = k' then none else get? d k' := by
  induction d with
  | nil => simp [erase]
  | cons p d ih =>
    obtain ⟨a, b⟩ := p
    rw [keys_cons, List.nodup_cons] at hd
    simp only [erase]
    split
    · rename_i h
      split
      · rename_i h2
        simp only at h hd; subst h; subst h2; exact get?_eq_none.2 hd.1
      · rename_i h2; simp only [get?]; rw [if_neg]; exact fun h3 => h2 (h ▸ h3)
    · rename_i h
      simp only [get?, ih hd.2]
      split
      · rename_i h1
        rw [if_neg]; rintro rfl; exact h h1
      · rfl

omit [DecidableEq α] in
theorem length_keys (d : Dict α β) : (keys d).length = d.length := by simp [keys]

theorem keys_erase (d : Dict α β) (k : α) : keys (erase d k) = (keys d).erase k := by
  induction d with
  | nil => rfl
  | cons p d ih =>
    obtain ⟨a, b⟩ := p
    simp only [erase, keys_cons]
    rw [List.erase_cons]
    split
    · rename_i h; simp [h]
    · rename_i h
      simp [h, ih]

theorem length_erase {d : Dict α β} {k : α} (h : k ∈ keys d) : (erase d k).length = d.length - 1 := by
  rw [← length_keys, keys_erase, List.length_erase_of_mem h, length_keys]

/-- python equality of dicts is equality of the lookup functions. -/
theorem eq_iff [DecidableEq β] {d e : Dict α β} (hd : (keys d).Nodup) (he : (keys e).Nodup) :
    Dict.eq d e = true ↔ ∀ k, get? d k = get? e k := by
  unfold Dict.eq
  simp only [Bool.and_eq_true, beq_iff_eq, List.all_eq_true]
  constructor
  · rintro ⟨hl, h⟩ k
    have hsub : keys d ⊆ keys e := by
      intro x hx
      obtain ⟨v, hv⟩ := mem_keys_iff.1 hx
      exact mem_keys_iff.2 ⟨_, h _ (get?_mem hv)⟩
    have hperm : (keys d).Perm (keys e) :=
      (hd.subperm hsub).perm_of_length_le (by rw [length_keys, length_keys]; omega)
    cases hk : get? d k with
    | some v => rw [h _ (get?_mem hk)]
    | none =>
      rw [get?_eq_none] at hk
      exact (get?_eq_none.2 (fun h1 => hk (hperm.mem_iff.2 h1))).symm
  · intro h
    have hperm : (keys d).Perm (keys e) :=
      (List.perm_ext_iff_of_nodup hd he).2 (fun a => by rw [← get?_isSome, ← get?_isSome, h])
    refine ⟨?_, ?_⟩
    · have := hperm.length_eq; simpa [length_keys] using this
    · rintro ⟨k, v⟩ hp
      rw [← h]; exact mem_get? hd hp

end Dict
end Verif.Py
