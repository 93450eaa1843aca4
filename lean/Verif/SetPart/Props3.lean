import Mathlib.Data.Nat.BitIndices
import Mathlib.Tactic.Ring
import Verif.SetPart.Improved

/-!
# C42, C43, C58: derived attributes, blocks with singletons
-/

namespace Verif.SP
open Verif.Py

variable {L : Type}

/-! ### C58: blocks_with_singletons -/

/-- `r` is the sorted list, without repetition, of the blocks (singletons included) of the given elements. -/
def ClassesOf (p : SetPart L) (elements : List Int) (r : List (List Int)) : Prop :=
  r.Pairwise (· < ·) ∧ ∀ C, C ∈ r ↔ ∃ e ∈ elements, C = p.elementToBlock e

theorem withSingletons_classes {p : SetPart L} (hp : WF p) {elements : List Int} (h : ∀ x ∈ p.nonSingletons, x ∈ elements) :
    ClassesOf p elements (p.withSingletons elements) := by
  obtain ⟨h1, h2⟩ := withSingletons_spec hp elements
  constructor
  · have hle : (p.withSingletons elements).Pairwise (· ≤ ·) := sortL_le _
    refine (hle.and h1).imp_of_mem ?_
    rintro B C hB hC ⟨hle, hd⟩
    refine lt_of_le_of_ne hle ?_
    rintro rfl
    have hne : B ≠ [] := by
      rcases (h2 B).1 hB with hB | ⟨e, _, _, rfl⟩
      · exact hp.canon.ne_nil hB
      · simp
    obtain ⟨x, hx⟩ := List.exists_mem_of_ne_nil _ hne
    exact hd hx hx
  · intro C
    rw [h2]
    constructor
    · rintro (hC | ⟨e, he, hn, rfl⟩)
      · obtain ⟨x, hx⟩ := List.exists_mem_of_ne_nil _ (hp.canon.ne_nil hC)
        exact ⟨x, h x (hp.mem_ns.2 ⟨C, hC, hx⟩), (hp.elementToBlock_of_mem hC hx).symm⟩
      · exact ⟨e, he, (WF.elementToBlock_of_not_mem hn).symm⟩
    · rintro ⟨e, he, rfl⟩
      by_cases hn : e ∈ p.nonSingletons
      · obtain ⟨B, hB, hx⟩ := hp.mem_ns.1 hn
        rw [hp.elementToBlock_of_mem hB hx]
        exact Or.inl hB
      · rw [WF.elementToBlock_of_not_mem hn]
        exact Or.inr ⟨e, he, hn, rfl⟩

theorem mem_rangeZ {low high x : Int} : x ∈ rangeZ low high ↔ low ≤ x ∧ x < high := by
  unfold rangeZ
  rw [List.mem_map]
  constructor
  · rintro ⟨i, hi, rfl⟩
    rw [List.mem_range] at hi
    omega
  · rintro ⟨h1, h2⟩
    exact ⟨(x - low).toNat, by rw [List.mem_range]; omega, by omega⟩

theorem foldl_max_spec (l : List Int) (x : Int) :
    (x ≤ l.foldl max x ∧ ∀ y ∈ l, y ≤ l.foldl max x) ∧ (l.foldl max x = x ∨ l.foldl max x ∈ l) := by
  induction l generalizing x with
  | nil => simp
  | cons y l ih =>
    obtain ⟨⟨h1, h2⟩, h3⟩ := ih (max x y)
    rw [List.foldl_cons]
    refine ⟨⟨le_trans (le_max_left _ _) h1, ?_⟩, ?_⟩
    · intro z hz
      rcases List.mem_cons.1 hz with rfl | hz
      · exact le_trans (le_max_right _ _) h1
      · exact h2 z hz
    · rcases h3 with h3 | h3
      · rw [h3]
        rcases le_total x y with h | h
        · right; rw [max_eq_right h]; simp
        · left; rw [max_eq_left h]
      · right; exact List.mem_cons_of_mem _ h3

theorem foldl_min_spec (l : List Int) (x : Int) :
    (l.foldl min x ≤ x ∧ ∀ y ∈ l, l.foldl min x ≤ y) ∧ (l.foldl min x = x ∨ l.foldl min x ∈ l) := by
  induction l generalizing x with
  | nil => simp
  | cons y l ih =>
    obtain ⟨⟨h1, h2⟩, h3⟩ := ih (min x y)
    rw [List.foldl_cons]
    refine ⟨⟨le_trans h1 (min_le_left _ _), ?_⟩, ?_⟩
    · intro z hz
      rcases List.mem_cons.1 hz with rfl | hz
      · exact le_trans h1 (min_le_right _ _)
      · exact h2 z hz
    · rcases h3 with h3 | h3
      · rw [h3]
        rcases le_total x y with h | h
        · left; rw [min_eq_left h]
        · right; rw [min_eq_right h]; simp
      · right; exact List.mem_cons_of_mem _ h3

theorem maxZ_spec {l : List Int} (h : l ≠ []) : maxZ l ∈ l ∧ ∀ y ∈ l, y ≤ maxZ l := by
  cases l with
  | nil => exact absurd rfl h
  | cons x l =>
    obtain ⟨⟨h1, h2⟩, h3⟩ := foldl_max_spec l x
    refine ⟨?_, ?_⟩
    · rcases h3 with h3 | h3
      · simp only [maxZ]; rw [h3]; simp
      · simp only [maxZ]; exact List.mem_cons_of_mem _ h3
    · intro y hy
      rcases List.mem_cons.1 hy with rfl | hy
      · exact h1
      · exact h2 y hy

/-- `p.length` of a partition of the natural numbers: 0 for the trivial one, else the least number above all
non-singletons. -/
theorem C58_length_attribute (p : SetPart L) (hp : WF p) (hd : p.domain = .N) :
    ∃ n, p.length = some n ∧ (p.nonSingletons = [] → n = 0) ∧
      (p.nonSingletons ≠ [] → n - 1 ∈ p.nonSingletons ∧ ∀ x ∈ p.nonSingletons, x < n) := by
  have hns : p.blocks = [] ↔ p.nonSingletons = [] := by
    constructor
    · intro h; rw [hp.ns, h]; rfl
    · intro h
      by_contra hb
      obtain ⟨B, hB⟩ := List.exists_mem_of_ne_nil _ hb
      obtain ⟨x, hx⟩ := List.exists_mem_of_ne_nil _ (hp.canon.ne_nil hB)
      have := hp.mem_ns.2 ⟨B, hB, hx⟩
      rw [h] at this; cases this
  have hl := hp.len
  rw [if_pos hd] at hl
  refine ⟨_, hl, ?_, ?_⟩
  · intro h; rw [if_pos (hns.2 h)]
  · intro h
    rw [if_neg (fun hb => h (hns.1 hb))]
    obtain ⟨h1, h2⟩ := maxZ_spec h
    refine ⟨?_, ?_⟩
    · rw [Int.add_sub_cancel]; exact h1
    · intro x hx; have := h2 x hx; omega

/-- All non-singletons are natural numbers. -/
theorem inDomain_ns {p : SetPart L} (hp : WF p) (h : ElementsInDomain p) {x : Int} (hx : x ∈ p.nonSingletons) :
    InDomain p.domain x := by
  obtain ⟨B, hB, hxB⟩ := hp.mem_ns.1 hx
  exact h B hB x hxB

/-- **C58.** `blocks_with_singletons(elements=...)` -/
theorem C58_elements (p : SetPart L) (hp : WF p) (elements : List Int) :
    ((∀ x ∈ p.nonSingletons, x ∈ elements) →
      ∃ r, p.blocksWithSingletons { elements := some elements } = .ok r ∧ ClassesOf p elements r) ∧
    ((∃ x ∈ p.nonSingletons, x ∉ elements) →
      p.blocksWithSingletons { elements := some elements } = .error .elementsMismatch) := by
  unfold SetPart.blocksWithSingletons
  simp only
  constructor
  · intro h
    rw [if_pos (by rw [List.all_eq_true]; intro x hx; rw [List.contains_iff_mem]; exact h x hx)]
    exact ⟨_, rfl, withSingletons_classes hp h⟩
  · rintro ⟨x, hx, hn⟩
    rw [if_neg]
    rw [List.all_eq_true]
    intro h
    exact hn (List.contains_iff_mem.1 (h x hx))

example : (do
    let p ← newPart (L := Nat) [[1, 3], [4, 5]]
    p.blocksWithSingletons { elements := some [5, 4, 3, 2, 1, 9] }) = .ok [[1, 3], [2], [4, 5], [9]] := by decide

/-- **C58.** `blocks_with_singletons(length=n)` -/
theorem C58_length (p : SetPart L) (hp : WF p) (he : ElementsInDomain p) (n : Int) :
    (p.domain = .N → (∀ l, p.length = some l → l ≤ n) →
      ∃ r, p.blocksWithSingletons { length := some n } = .ok r ∧ ClassesOf p (rangeZ 0 n) r) ∧
    (p.domain = .N → (∀ l, p.length = some l → n < l) →
      p.blocksWithSingletons { length := some n } = .error .lengthMismatch) ∧
    (p.domain ≠ .N → p.blocksWithSingletons { length := some n } = .error .lengthNotAllowed) := by
  unfold SetPart.blocksWithSingletons
  simp only
  refine ⟨?_, ?_, ?_⟩
  · intro hd hn
    obtain ⟨l, h1, h2, h3⟩ := C58_length_attribute p hp hd
    have hln := hn l h1
    rw [if_neg (by simp [hd]), h1, if_neg (by simpa using hln)]
    refine ⟨_, rfl, withSingletons_classes hp ?_⟩
    intro x hx
    have hx0 := inDomain_ns hp he hx
    rw [hd] at hx0
    have := (h3 (List.ne_nil_of_mem hx)).2 x hx
    rw [mem_rangeZ]
    exact ⟨hx0, by omega⟩
  · intro hd hn
    obtain ⟨l, h1, _, _⟩ := C58_length_attribute p hp hd
    rw [if_neg (by simp [hd]), h1, if_pos (by simpa using hn l h1)]
  · intro hd
    rw [if_pos hd]

example : (do
    let p ← newPart (L := Nat) [[1, 3], [4, 5]]
    p.blocksWithSingletons { length := some 7 }) = .ok [[0], [1, 3], [2], [4, 5], [6]] := by decide
example : (do
    let p ← newPart (L := Nat) [[1, 3], [4, 5]]
    p.blocksWithSingletons { length := some 5 }) = .error .lengthMismatch := by decide

theorem pyMinMax_spec (l : List Int) :
    (l = [] → pyMinMax l = .error .valueError) ∧
    (l ≠ [] → ∃ mn mx, pyMinMax l = .ok (mn, mx) ∧ mn ∈ l ∧ mx ∈ l ∧ ∀ x ∈ l, mn ≤ x ∧ x ≤ mx) := by
  cases l with
  | nil => simp [pyMinMax]
  | cons x l =>
    refine ⟨by simp, fun _ => ?_⟩
    obtain ⟨⟨a1, a2⟩, a3⟩ := foldl_min_spec l x
    obtain ⟨⟨b1, b2⟩, b3⟩ := foldl_max_spec l x
    refine ⟨_, _, rfl, ?_, ?_, ?_⟩
    · rcases a3 with a3 | a3
      · rw [a3]; simp
      · exact List.mem_cons_of_mem _ a3
    · rcases b3 with b3 | b3
      · rw [b3]; simp
      · exact List.mem_cons_of_mem _ b3
    · intro y hy
      rcases List.mem_cons.1 hy with rfl | hy
      · exact ⟨a1, b1⟩
      · exact ⟨a2 y hy, b2 y hy⟩

/-- **C58.** `blocks_with_singletons(range_pair=(low, high))` -/
theorem C58_range (p : SetPart L) (hp : WF p) (low high : Int) :
    (p.domain = .Z → p.nonSingletons ≠ [] → (∀ x ∈ p.nonSingletons, low ≤ x ∧ x < high) →
      ∃ r, p.blocksWithSingletons { rangePair := some (low, high) } = .ok r ∧ ClassesOf p (rangeZ low high) r) ∧
    (p.domain = .Z → (∃ x ∈ p.nonSingletons, x < low ∨ high ≤ x) →
      p.blocksWithSingletons { rangePair := some (low, high) } = .error .rangeMismatch) ∧
    (p.domain = .Z → p.nonSingletons = [] →
      p.blocksWithSingletons { rangePair := some (low, high) } = .error .valueError) ∧
    (p.domain ≠ .Z → p.blocksWithSingletons { rangePair := some (low, high) } = .error .rangeNotAllowed) := by
  unfold SetPart.blocksWithSingletons
  simp only
  refine ⟨?_, ?_, ?_, ?_⟩
  · intro hd hne h
    obtain ⟨mn, mx, h1, h2, h3, h4⟩ := (pyMinMax_spec p.nonSingletons).2 hne
    rw [if_neg (by simp [hd]), h1]
    simp only
    rw [if_pos ⟨(h mn h2).1, (h mx h3).2⟩]
    exact ⟨_, rfl, withSingletons_classes hp (fun x hx => mem_rangeZ.2 (h x hx))⟩
  · rintro hd ⟨x, hx, h⟩
    obtain ⟨mn, mx, h1, h2, h3, h4⟩ := (pyMinMax_spec p.nonSingletons).2 (List.ne_nil_of_mem hx)
    rw [if_neg (by simp [hd]), h1]
    simp only
    rw [if_neg]
    have := h4 x hx
    omega
  · intro hd hne
    rw [if_neg (by simp [hd]), (pyMinMax_spec p.nonSingletons).1 hne]
  · intro hd
    rw [if_pos hd]

example : (do
    let p ← newPart (L := Nat) [[-1, 3], [1, 2]] .Z
    p.blocksWithSingletons { rangePair := some (-3, 5) }) = .ok [[-3], [-2], [-1, 3], [0], [1, 2], [4]] := by decide

/-- **C58.** `blocks_with_singletons()`: for `'N'` the elements are `range(p.length)`, for `'Z'` those from the least to the
greatest non-singleton, otherwise the domain.  Only the trivial partition of the integers fails. -/
theorem C58_default (p : SetPart L) (hp : WF p) (he : ElementsInDomain p) :
    (p.domain = .N → ∃ n r, p.length = some n ∧ p.blocksWithSingletons {} = .ok r ∧ ClassesOf p (rangeZ 0 n) r) ∧
    (p.domain = .Z → p.nonSingletons ≠ [] → ∃ mn mx r, mn ∈ p.nonSingletons ∧ mx ∈ p.nonSingletons ∧
      (∀ x ∈ p.nonSingletons, mn ≤ x ∧ x ≤ mx) ∧ p.blocksWithSingletons {} = .ok r ∧
      ClassesOf p (rangeZ mn (mx + 1)) r) ∧
    (p.domain = .Z → p.nonSingletons = [] → p.blocksWithSingletons {} = .error .valueError) ∧
    (∀ s, p.domain = .finite s → ∃ r, p.blocksWithSingletons {} = .ok r ∧ ClassesOf p s r) := by
  unfold SetPart.blocksWithSingletons
  simp only
  refine ⟨?_, ?_, ?_, ?_⟩
  · intro hd
    obtain ⟨l, h1, h2, h3⟩ := C58_length_attribute p hp hd
    rw [hd, h1]
    refine ⟨l, _, rfl, rfl, withSingletons_classes hp ?_⟩
    intro x hx
    have hx0 := inDomain_ns hp he hx
    rw [hd] at hx0
    rw [mem_rangeZ]
    exact ⟨hx0, (h3 (List.ne_nil_of_mem hx)).2 x hx⟩
  · intro hd hne
    obtain ⟨mn, mx, h1, h2, h3, h4⟩ := (pyMinMax_spec p.nonSingletons).2 hne
    rw [hd, h1]
    refine ⟨mn, mx, _, h2, h3, h4, rfl, withSingletons_classes hp ?_⟩
    intro x hx
    rw [mem_rangeZ]
    have := h4 x hx
    omega
  · intro hd hne
    rw [hd, (pyMinMax_spec p.nonSingletons).1 hne]
  · intro s hd
    rw [hd]
    refine ⟨_, rfl, withSingletons_classes hp ?_⟩
    intro x hx
    have := inDomain_ns hp he hx
    rw [hd] at this
    exact this

/-! ### C43: pairs and intval -/

theorem sum_pow_testBit {l : List Nat} (h : l.Nodup) (k : Nat) : (l.map (2 ^ ·)).sum.testBit k = true ↔ k ∈ l := by
  have hs : ((l.insertionSort (· ≤ ·)).map (2 ^ ·)).sum = (l.map (2 ^ ·)).sum :=
    ((List.perm_insertionSort (· ≤ ·) l).map _).sum_eq
  have hlt : (l.insertionSort (· ≤ ·)).Pairwise (· < ·) := by
    have h1 := List.pairwise_insertionSort (· ≤ ·) l
    have h2 : (l.insertionSort (· ≤ ·)).Nodup := (List.perm_insertionSort (· ≤ ·) l).nodup_iff.2 h
    exact (h1.and h2).imp (fun ⟨a, b⟩ => lt_of_le_of_ne a b)
  rw [← hs, ← Nat.mem_bitIndices, Nat.bitIndices_sum_map_two_pow (List.sortedLT_iff_pairwise.2 hlt),
    (List.perm_insertionSort (· ≤ ·) l).mem_iff]

/-- the exponent of a pair -/
def pairExp (ab : Int × Int) : Nat := (ab.2.toNat ^ 2 - ab.2.toNat) / 2 + ab.1.toNat

theorem tri_succ (n : Nat) : ((n + 1) ^ 2 - (n + 1)) / 2 = (n ^ 2 - n) / 2 + n := by
  have h1 : (n + 1) ^ 2 - (n + 1) = (n ^ 2 - n) + n * 2 := by
    have h2 : n ≤ n ^ 2 := Nat.le_self_pow (by decide) n
    have h3 : (n + 1) ^ 2 = n ^ 2 + 2 * n + 1 := by ring
    omega
  rw [h1, Nat.add_mul_div_right _ _ (by decide)]

theorem tri_mono {m n : Nat} (h : m ≤ n) : (m ^ 2 - m) / 2 ≤ (n ^ 2 - n) / 2 := by
  induction h with
  | refl => exact le_refl _
  | step _ ih => rw [Nat.succ_eq_add_one, tri_succ]; omega

theorem pairExp_inj {a b c d : Int} (ha : 0 ≤ a) (hab : a < b) (hc : 0 ≤ c) (hcd : c < d)
    (h : pairExp (a, b) = pairExp (c, d)) : (a, b) = (c, d) := by
  unfold pairExp at h
  simp only at h
  have key : ∀ {a b c d : Int}, 0 ≤ a → a < b → 0 ≤ c → c < d → b < d →
      (b.toNat ^ 2 - b.toNat) / 2 + a.toNat < (d.toNat ^ 2 - d.toNat) / 2 + c.toNat := by
    intro a b c d ha hab hc hcd hbd
    have h1 := tri_mono (m := b.toNat + 1) (n := d.toNat) (by omega)
    rw [tri_succ] at h1
    omega
  rcases lt_trichotomy b d with hbd | hbd | hbd
  · have := key ha hab hc hcd hbd; omega
  · subst hbd
    have : a = c := by omega
    rw [this]
  · have := key hc hcd ha hab hbd; omega

theorem intvalOf_eq (l : List (Int × Int)) : intvalOf l = ((l.map pairExp).map (2 ^ ·)).sum := by
  unfold intvalOf
  have key : ∀ (l : List (Int × Int)) (r : Nat),
      l.foldl (fun result ab => result + 2 ^ ((ab.2.toNat ^ 2 - ab.2.toNat) / 2 + ab.1.toNat)) r =
        r + ((l.map pairExp).map (2 ^ ·)).sum := by
    intro l
    induction l with
    | nil => intro r; simp
    | cons ab l ih => intro r; rw [List.foldl_cons, ih]; simp [pairExp]; ring
  rw [key]; simp

/-- **C43.** `pairs` of an object is the set of pairs `a < b` that it joins (when it is first read). -/
theorem C43_pairs (p : SetPart L) (hp : WF p) (hf : PairsFresh p) (a b : Int) :
    (a, b) ∈ p.pairs.1 ↔ a < b ∧ p.pairInSameBlock a b = true := by
  rw [pairs_fresh hf, mem_computePairs hp, hp.pairInSameBlock]

example : (newPart (L := Nat) [[0, 2, 5], [1, 4]]).map (fun p => p.pairs.1) = .ok [(0, 2), (0, 5), (2, 5), (1, 4)] := by decide

theorem computePairs_nodup (p : SetPart L) : p.computePairs.Nodup := nodup_pySet _

/-- bit `(b² - b)/2 + a` of `intval` says whether `a < b` are joined -/
theorem intvalOf_testBit {p : SetPart L} (hp : WF p) (hn : ∀ B ∈ p.blocks, ∀ x ∈ B, 0 ≤ x) {a b : Int} (ha : 0 ≤ a)
    (hab : a < b) : (intvalOf p.computePairs).testBit (pairExp (a, b)) = true ↔ Joined p.blocks a b := by
  have hpos : ∀ c d, (c, d) ∈ p.computePairs → 0 ≤ c ∧ c < d := by
    intro c d h
    obtain ⟨h1, B, hB, h2, _⟩ := (mem_computePairs hp).1 h
    exact ⟨hn B hB c h2, h1⟩
  have hnd : (p.computePairs.map pairExp).Nodup := by
    refine List.Nodup.map_on ?_ (computePairs_nodup p)
    rintro ⟨c, d⟩ h1 ⟨e, f⟩ h2 h
    exact pairExp_inj (hpos c d h1).1 (hpos c d h1).2 (hpos e f h2).1 (hpos e f h2).2 h
  rw [intvalOf_eq, sum_pow_testBit hnd, List.mem_map]
  constructor
  · rintro ⟨⟨c, d⟩, h1, h2⟩
    have := pairExp_inj (hpos c d h1).1 (hpos c d h1).2 ha hab h2
    rw [this] at h1
    exact ((mem_computePairs hp).1 h1).2
  · intro h
    exact ⟨(a, b), (mem_computePairs hp).2 ⟨hab, h⟩, rfl⟩

/-- Neither `intval` nor `pairs` are outdated. -/
def IntvalFresh (p : SetPart L) : Prop :=
  PairsFresh p ∧ (p.cache.intval = none ∨ p.cache.intval = some (intvalOf p.computePairs))

theorem intval_fresh {p : SetPart L} (h : IntvalFresh p) : p.intval.1 = intvalOf p.computePairs := by
  unfold SetPart.intval
  rcases h.2 with h2 | h2
  · rw [h2]
    simp only
    rw [pairs_fresh h.1]
  · rw [h2]

/-- **C43.** Bit `a + (0 + 1 + ... + (b-1))` of `intval` tells whether `a < b` are joined. -/
theorem C43_intval_bits (p : SetPart L) (hp : WF p) (hn : ∀ B ∈ p.blocks, ∀ x ∈ B, 0 ≤ x) (hf : IntvalFresh p) (a b : Nat)
    (hab : a < b) : p.intval.1.testBit ((List.range b).sum + a) = p.pairInSameBlock a b := by
  have hr : (List.range b).sum = (b ^ 2 - b) / 2 := by
    clear hab
    induction b with
    | zero => rfl
    | succ n ih => rw [List.range_succ, List.sum_append, ih, tri_succ]; simp
  rw [Bool.eq_iff_iff, intval_fresh hf, hp.pairInSameBlock, ← intvalOf_testBit hp hn (by omega) (by omega), hr]
  simp [pairExp]

/-- **C43.** Two partitions of the natural numbers are equal iff their `intval` is equal. -/
theorem C43_intval_injective (p q : SetPart L) (hp : WF p) (hq : WF q) (hpd : p.domain = .N) (hqd : q.domain = .N)
    (hpe : ElementsInDomain p) (hqe : ElementsInDomain q) (hpf : IntvalFresh p) (hqf : IntvalFresh q) :
    p.eq q = .ok (decide (p.intval.1 = q.intval.1)) := by
  have hnp : ∀ B ∈ p.blocks, ∀ x ∈ B, 0 ≤ x := fun B hB x hx => by have := hpe B hB x hx; rw [hpd] at this; exact this
  have hnq : ∀ B ∈ q.blocks, ∀ x ∈ B, 0 ≤ x := fun B hB x hx => by have := hqe B hB x hx; rw [hqd] at this; exact this
  have hiff : p.intval.1 = q.intval.1 ↔ p.blocks = q.blocks := by
    rw [intval_fresh hpf, intval_fresh hqf]
    constructor
    · intro h
      have key : ∀ a b, 0 ≤ a → a < b → (Joined p.blocks a b ↔ Joined q.blocks a b) := by
        intro a b ha hab
        rw [← intvalOf_testBit hp hnp ha hab, ← intvalOf_testBit hq hnq ha hab, h]
      have one : ∀ {u v : SetPart L}, WF u → WF v → (∀ B ∈ u.blocks, ∀ x ∈ B, 0 ≤ x) →
          (∀ a b, 0 ≤ a → a < b → (Joined u.blocks a b ↔ Joined v.blocks a b)) → ∀ a b, a ≠ b →
          Joined u.blocks a b → Joined v.blocks a b := by
        intro u v hu hv hn h a b hab hj
        obtain ⟨B, hB, ha, hb⟩ := hj
        rcases lt_or_gt_of_ne hab with h' | h'
        · exact (h a b (hn B hB a ha) h').1 ⟨B, hB, ha, hb⟩
        · exact Canon.symm ((h b a (hn B hB b hb) h').1 ⟨B, hB, hb, ha⟩)
      apply Canon.ext hp.canon hq.canon
      intro a b hab
      exact ⟨one hp hq hnp key a b hab, one hq hp hnq (fun a b h1 h2 => (key a b h1 h2).symm) a b hab⟩
    · intro h
      unfold SetPart.computePairs
      rw [h]
  unfold SetPart.eq
  rw [hpd, hqd, if_pos (by decide)]
  congr 1
  rw [Bool.eq_iff_iff, decide_eq_true_iff, decide_eq_true_iff, hiff]

example : (newPart (L := Nat) [[0, 2, 3], [1, 4]]).map (fun p => p.intval.1) = .ok (2 + 8 + 32 + 128) := by decide

end Verif.SP
