import Mathlib.Logic.Relation
import Verif.A.Det

/-! # Model of a/create_hasse_matrix; property C121 -/

namespace Verif.A
open Verif.Py

/-! ## Model -/

section
variable {α : Type}

/-- a/create_hasse_matrix/__init__.py:9-14 -/
def hasseFill (nodes : List α) (isUnder : α → α → Bool) : Mat := nodes.map fun a => nodes.map fun b => if isUnder a b then 1 else 0

/-- a/create_hasse_matrix/__init__.py:16-17 -/
def clearDiagonal (n : Nat) (m : Mat) : Mat := (List.range n).foldl (fun m i => m.put i i 0) m

/-- a/create_hasse_matrix/__init__.py:30-32 -/
def hasseEntry (n : Nat) (old : Mat) (i j : Nat) (new : Mat) : Mat :=
  (List.range n).foldl (fun new k => if old.get i k = 1 ∧ old.get k j = 1 then new.put i j 2 else new) new

/-- a/create_hasse_matrix/__init__.py:25-26, the pairs of the two nested loops -/
def squarePairs (n : Nat) : List (Nat × Nat) := (List.range n).flatMap fun i => (List.range n).map fun j => (i, j)

/-- a/create_hasse_matrix/__init__.py:25-32 -/
def hassePass (n : Nat) (old new : Mat) : Mat :=
  (squarePairs n).foldl (fun new p => if new.get p.1 p.2 = 1 then hasseEntry n old p.1 p.2 new else new) new

/-- `sum(sum(m))` (numpy, python) for at least one row -/
def matSum (m : Mat) : Int := (m.map List.sum).sum

/-- `m % 2` (numpy) -/
def matMod2 (m : Mat) : Mat := m.map fun r => r.map fun x => x.fmod 2

/-- a/create_hasse_matrix/__init__.py:24-37; the number bounds the passes -/
def hasseLoop (n : Nat) (old : Mat) : Nat → Mat → Int → Except Err Mat
  | 0, _, _ => .error .diverges
  | fuel + 1, new, lastSum =>
    let new := hassePass n old new
    let currentSum := matSum (matMod2 new)
    if currentSum = lastSum then .ok new else hasseLoop n old fuel new currentSum

/-- a/create_hasse_matrix/__init__.py:4-39; `fuel` bounds the passes of the loop.  (Without nodes the inner `sum` is the number 0, which can not be iterated over.) -/
def createHasseMatrix (fuel : Nat) (nodes : List α) (isUnder : α → α → Bool) (withIndirectEdges : Bool := false) : Except Err Mat :=
  if nodes.length = 0 then .error .typeError
  else do
    let old := clearDiagonal nodes.length (hasseFill nodes isUnder)
    let new ← hasseLoop nodes.length old fuel old (matSum old)
    return if withIndirectEdges then new else matMod2 new

/-! ## Specification -/

/-- the relation between two different places -/
def Under (nodes : List α) (isUnder : α → α → Bool) (i j : Nat) : Prop :=
  i ≠ j ∧ ∃ a b, nodes[i]? = some a ∧ nodes[j]? = some b ∧ isUnder a b = true

/-- there is another place between -/
def Between (nodes : List α) (isUnder : α → α → Bool) (i j : Nat) : Prop := ∃ k, Under nodes isUnder i k ∧ Under nodes isUnder k j

/-! ## Proofs -/

theorem Mat.ext_get {m m' : Mat} {n : Nat} (h : m.Square n) (h' : m'.Square n) (he : ∀ i < n, ∀ j < n, m.get i j = m'.get i j) : m = m' := by
  apply List.ext_getElem (by rw [h.1, h'.1])
  intro i hi hi'
  have hin : i < n := by rw [← h.1]; exact hi
  apply List.ext_getElem (by rw [h.2 _ (List.getElem_mem _), h'.2 _ (List.getElem_mem _)])
  intro j hj hj'
  have hjn : j < n := by rw [← h.2 _ (List.getElem_mem hi)]; exact hj
  have := he i hin j hjn
  simpa [Mat.get, List.getD_eq_getElem?_getD, hi, hi', hj, hj'] using this

theorem hasseFill_square (nodes : List α) (isUnder : α → α → Bool) : (hasseFill nodes isUnder).Square nodes.length := by
  refine ⟨by simp [hasseFill], fun r hr => ?_⟩
  obtain ⟨a, _, rfl⟩ := List.mem_map.1 hr
  simp

theorem hasseFill_get {nodes : List α} {isUnder : α → α → Bool} {i j : Nat} {a b : α} (ha : nodes[i]? = some a) (hb : nodes[j]? = some b) :
    (hasseFill nodes isUnder).get i j = if isUnder a b then 1 else 0 := by
  simp [hasseFill, Mat.get, List.getD_eq_getElem?_getD, ha, hb]

theorem foldl_put_diag {n : Nat} : ∀ (l : List Nat) (m : Mat), m.Square n → (∀ i ∈ l, i < n) →
    (l.foldl (fun m i => m.put i i 0) m).Square n ∧ ∀ i j, (l.foldl (fun m i => m.put i i 0) m).get i j = if i = j ∧ i ∈ l then 0 else m.get i j
  | [], m, h, _ => ⟨h, by simp⟩
  | k :: l, m, h, hl => by
    have hk := hl k (by simp)
    obtain ⟨h1, h2⟩ := foldl_put_diag l (m.put k k 0) (h.put hk 0) (fun i hi => hl i (by simp [hi]))
    rw [List.foldl_cons]
    refine ⟨h1, fun i j => ?_⟩
    rw [h2, Mat.get_put h hk hk]
    by_cases h1 : i = j ∧ i ∈ l
    · rw [if_pos h1, if_pos ⟨h1.1, List.mem_cons_of_mem _ h1.2⟩]
    · rw [if_neg h1]
      by_cases h2 : i = k ∧ j = k
      · rw [if_pos h2, if_pos ⟨by omega, by rw [h2.1]; simp⟩]
      · rw [if_neg h2, if_neg]
        rintro ⟨rfl, h3⟩
        rcases List.mem_cons.1 h3 with rfl | h3
        · exact h2 ⟨rfl, rfl⟩
        · exact h1 ⟨rfl, h3⟩

theorem hasseEntry_spec {n : Nat} {old : Mat} {i j : Nat} (hi : i < n) (hj : j < n) : ∀ (l : List Nat) (new : Mat), new.Square n →
    (l.foldl (fun new k => if old.get i k = 1 ∧ old.get k j = 1 then new.put i j 2 else new) new).Square n ∧
      ∀ x y, (l.foldl (fun new k => if old.get i k = 1 ∧ old.get k j = 1 then new.put i j 2 else new) new).get x y =
        if (x = i ∧ y = j) ∧ ∃ k ∈ l, old.get i k = 1 ∧ old.get k j = 1 then 2 else new.get x y
  | [], new, h => ⟨h, by simp⟩
  | k :: l, new, h => by
    rw [List.foldl_cons]
    by_cases hk : old.get i k = 1 ∧ old.get k j = 1
    · rw [if_pos hk]
      obtain ⟨h1, h2⟩ := hasseEntry_spec hi hj l (new.put i j 2) (h.put hi 2)
      refine ⟨h1, fun x y => ?_⟩
      rw [h2, Mat.get_put h hi hj]
      by_cases hxy : x = i ∧ y = j
      · have hk' : (x = i ∧ y = j) ∧ ∃ k' ∈ k :: l, old.get i k' = 1 ∧ old.get k' j = 1 := ⟨hxy, k, by simp, hk⟩
        rw [if_pos hk', if_pos hxy]
        simp
      · rw [if_neg (fun h => hxy h.1), if_neg hxy, if_neg (fun h => hxy h.1)]
    · rw [if_neg hk]
      obtain ⟨h1, h2⟩ := hasseEntry_spec hi hj l new h
      refine ⟨h1, fun x y => ?_⟩
      rw [h2]
      have : (∃ k' ∈ k :: l, old.get i k' = 1 ∧ old.get k' j = 1) ↔ ∃ k' ∈ l, old.get i k' = 1 ∧ old.get k' j = 1 := by
        rw [List.exists_mem_cons_iff]
        simp [hk]
      simp only [this]

open Classical in
theorem hassePass_spec {n : Nat} {old : Mat} : ∀ (l : List (Nat × Nat)) (new : Mat), new.Square n → (∀ p ∈ l, p.1 < n ∧ p.2 < n) →
    (l.foldl (fun new p => if new.get p.1 p.2 = 1 then hasseEntry n old p.1 p.2 new else new) new).Square n ∧
      ∀ x y, (l.foldl (fun new p => if new.get p.1 p.2 = 1 then hasseEntry n old p.1 p.2 new else new) new).get x y =
        if (x, y) ∈ l ∧ new.get x y = 1 ∧ ∃ k < n, old.get x k = 1 ∧ old.get k y = 1 then 2 else new.get x y
  | [], new, h, _ => ⟨h, by simp⟩
  | (i, j) :: l, new, h, hl => by
    obtain ⟨hi, hj⟩ := hl (i, j) (by simp)
    simp only at hi hj
    rw [List.foldl_cons]
    have hstep : ∃ m : Mat, (if new.get i j = 1 then hasseEntry n old i j new else new) = m ∧ m.Square n ∧
        ∀ x y, m.get x y = if (x = i ∧ y = j) ∧ new.get x y = 1 ∧ ∃ k < n, old.get x k = 1 ∧ old.get k y = 1 then 2 else new.get x y := by
      by_cases h1 : new.get i j = 1
      · rw [if_pos h1]
        obtain ⟨q1, q2⟩ := hasseEntry_spec (old := old) hi hj (List.range n) new h
        refine ⟨_, rfl, q1, fun x y => ?_⟩
        unfold hasseEntry
        rw [q2]
        by_cases hxy : x = i ∧ y = j
        · obtain ⟨rfl, rfl⟩ := hxy
          simp [h1]
        · rw [if_neg (fun h => hxy h.1), if_neg (fun h => hxy h.1)]
      · rw [if_neg h1]
        refine ⟨new, rfl, h, fun x y => ?_⟩
        rw [if_neg]
        rintro ⟨⟨rfl, rfl⟩, h2, _⟩
        exact h1 h2
    obtain ⟨m, e, s1, s2⟩ := hstep
    simp only [e]
    obtain ⟨h1, h2⟩ := hassePass_spec (old := old) l m s1 (fun p hp => hl p (by simp [hp]))
    refine ⟨h1, fun x y => ?_⟩
    rw [h2]
    simp only [s2 x y]
    by_cases hc : new.get x y = 1 ∧ ∃ k < n, old.get x k = 1 ∧ old.get k y = 1
    · by_cases hxy : x = i ∧ y = j
      · rw [if_pos (show (x = i ∧ y = j) ∧ _ from ⟨hxy, hc⟩), if_pos (show (x, y) ∈ (i, j) :: l ∧ _ from ⟨by rw [hxy.1, hxy.2]; simp, hc⟩)]
        simp
      · have e2 : (if (x = i ∧ y = j) ∧ new.get x y = 1 ∧ ∃ k < n, old.get x k = 1 ∧ old.get k y = 1 then 2 else new.get x y) = new.get x y := if_neg (fun h => hxy h.1)
        have : (x, y) ∈ (i, j) :: l ↔ (x, y) ∈ l := by
          rw [List.mem_cons, Prod.mk.injEq]
          simp [hxy]
        simp only [this, e2]
    · have e2 : (if (x = i ∧ y = j) ∧ new.get x y = 1 ∧ ∃ k < n, old.get x k = 1 ∧ old.get k y = 1 then 2 else new.get x y) = new.get x y := if_neg (fun h => hc h.2)
      simp only [e2]
      rw [if_neg (fun h => hc h.2), if_neg (fun h => hc h.2)]

theorem mem_squarePairs {n i j : Nat} : (i, j) ∈ squarePairs n ↔ i < n ∧ j < n := by
  unfold squarePairs
  simp

theorem matMod2_square {n : Nat} {m : Mat} (h : m.Square n) : (matMod2 m).Square n := by
  refine ⟨by simp [matMod2, h.1], fun r hr => ?_⟩
  obtain ⟨r', hr', rfl⟩ := List.mem_map.1 hr
  rw [List.length_map, h.2 _ hr']

theorem matMod2_get {n : Nat} {m : Mat} (h : m.Square n) {i j : Nat} (hi : i < n) (hj : j < n) : (matMod2 m).get i j = (m.get i j).fmod 2 := by
  have h1 : i < m.length := by rw [h.1]; exact hi
  have h2 : j < m[i].length := by rw [h.2 _ (List.getElem_mem h1)]; exact hj
  simp [matMod2, Mat.get, List.getD_eq_getElem?_getD, h1, h2]

end

section
variable {α : Type} {nodes : List α} {isUnder : α → α → Bool}

theorem Under.lt {i j : Nat} (h : Under nodes isUnder i j) : i < nodes.length ∧ j < nodes.length := by
  obtain ⟨_, a, b, ha, hb, _⟩ := h
  exact ⟨(List.getElem?_eq_some_iff.1 ha).1, (List.getElem?_eq_some_iff.1 hb).1⟩

open Classical in
theorem hasseStart_spec : (clearDiagonal nodes.length (hasseFill nodes isUnder)).Square nodes.length ∧
    ∀ i < nodes.length, ∀ j < nodes.length, (clearDiagonal nodes.length (hasseFill nodes isUnder)).get i j = if Under nodes isUnder i j then 1 else 0 := by
  obtain ⟨h1, h2⟩ := foldl_put_diag (List.range nodes.length) _ (hasseFill_square nodes isUnder) (by simp)
  refine ⟨h1, fun i hi j hj => ?_⟩
  unfold clearDiagonal
  rw [h2, hasseFill_get (List.getElem?_eq_getElem hi) (List.getElem?_eq_getElem hj)]
  by_cases hij : i = j
  · subst hij
    rw [if_pos ⟨rfl, List.mem_range.2 hi⟩, if_neg (fun h => h.1 rfl)]
  · rw [if_neg (fun h => hij h.1)]
    have : Under nodes isUnder i j ↔ isUnder nodes[i] nodes[j] = true := by
      unfold Under
      simp [hij, hi, hj]
    by_cases hu : isUnder nodes[i] nodes[j] = true
    · rw [if_pos hu, if_pos (this.2 hu)]
    · rw [if_neg hu, if_neg (fun h => hu (this.1 h))]

open Classical in
/-- the result with indirect edges -/
theorem hasse_full (hn : nodes ≠ []) {fuel : Nat} (hf : 2 ≤ fuel) : ∃ m, createHasseMatrix fuel nodes isUnder true = .ok m ∧ createHasseMatrix fuel nodes isUnder = .ok (matMod2 m) ∧
    m.Square nodes.length ∧ ∀ i < nodes.length, ∀ j < nodes.length,
      m.get i j = if Under nodes isUnder i j then if Between nodes isUnder i j then 2 else 1 else 0 := by
  obtain ⟨s1, s2⟩ := hasseStart_spec (nodes := nodes) (isUnder := isUnder)
  obtain ⟨old, hold⟩ : ∃ old, old = clearDiagonal nodes.length (hasseFill nodes isUnder) := ⟨_, rfl⟩
  rw [← hold] at s1 s2
  have hbetween : ∀ i < nodes.length, ∀ j < nodes.length, (∃ k < nodes.length, old.get i k = 1 ∧ old.get k j = 1) ↔ Between nodes isUnder i j := by
    intro i hi j hj
    have one : ∀ x < nodes.length, ∀ y < nodes.length, (old.get x y = 1 ↔ Under nodes isUnder x y) := by
      intro x hx y hy
      rw [s2 x hx y hy]
      split <;> simp_all
    constructor
    · rintro ⟨k, hk, h1, h2⟩
      exact ⟨k, (one i hi k hk).1 h1, (one k hk j hj).1 h2⟩
    · rintro ⟨k, h1, h2⟩
      exact ⟨k, h1.lt.2, (one i hi k h1.lt.2).2 h1, (one k h1.lt.2 j hj).2 h2⟩
  have hpairs : ∀ p ∈ squarePairs nodes.length, p.1 < nodes.length ∧ p.2 < nodes.length := fun p hp => mem_squarePairs.1 hp
  have hpass : ∀ m : Mat, m.Square nodes.length → (hassePass nodes.length old m).Square nodes.length ∧ ∀ i < nodes.length, ∀ j < nodes.length,
      (hassePass nodes.length old m).get i j = if m.get i j = 1 ∧ Between nodes isUnder i j then 2 else m.get i j := by
    intro m hm
    obtain ⟨q1, q2⟩ := hassePass_spec (old := old) (squarePairs nodes.length) m hm hpairs
    refine ⟨q1, fun i hi j hj => ?_⟩
    unfold hassePass
    rw [q2]
    simp only [mem_squarePairs, hi, hj, hbetween i hi j hj, true_and, and_true]
  obtain ⟨p1, p2⟩ := hpass old s1
  obtain ⟨m, hm⟩ : ∃ m, m = hassePass nodes.length old old := ⟨_, rfl⟩
  rw [← hm] at p1 p2
  have hget : ∀ i < nodes.length, ∀ j < nodes.length, m.get i j = if Under nodes isUnder i j then if Between nodes isUnder i j then 2 else 1 else 0 := by
    intro i hi j hj
    rw [p2 i hi j hj, s2 i hi j hj]
    by_cases hu : Under nodes isUnder i j
    · by_cases hb : Between nodes isUnder i j <;> simp [hu, hb]
    · simp [hu]
  have hfix : hassePass nodes.length old m = m := by
    obtain ⟨q1, q2⟩ := hpass m p1
    apply Mat.ext_get q1 p1
    intro i hi j hj
    rw [q2 i hi j hj, if_neg]
    rintro ⟨h1, h2⟩
    rw [hget i hi j hj] at h1
    split at h1 <;> simp_all
  have hloop : hasseLoop nodes.length old fuel old (matSum old) = .ok m := by
    match fuel, hf with
    | fuel + 2, _ =>
      rw [hasseLoop]
      simp only [← hm]
      split
      · rfl
      · rw [hasseLoop]
        simp only [hfix, if_true]
  have hlen : ¬ nodes.length = 0 := by simpa using hn
  refine ⟨m, ?_, ?_, p1, hget⟩
  · unfold createHasseMatrix
    rw [if_neg hlen]
    simp only [← hold, hloop, bind, Except.bind, pure, Except.pure, if_true]
  · unfold createHasseMatrix
    rw [if_neg hlen]
    simp only [← hold, hloop, bind, Except.bind, pure, Except.pure]
    rfl

/-- **C121.** `create_hasse_matrix` with indirect edges: the entry for two different nodes is 0 if the first one is not under the second one,
2 if there is another node between, and 1 otherwise.  The diagonal is zero. -/
theorem C121_with_indirect_edges (hn : nodes ≠ []) {fuel : Nat} (hf : 2 ≤ fuel) : ∃ m, createHasseMatrix fuel nodes isUnder true = .ok m ∧ m.Square nodes.length ∧
    ∀ i < nodes.length, ∀ j < nodes.length, (m.get i j = 0 ∧ ¬ Under nodes isUnder i j) ∨ (m.get i j = 1 ∧ Under nodes isUnder i j ∧ ¬ Between nodes isUnder i j) ∨
      (m.get i j = 2 ∧ Under nodes isUnder i j ∧ Between nodes isUnder i j) := by
  obtain ⟨m, h1, _, h3, h4⟩ := hasse_full (isUnder := isUnder) hn hf
  refine ⟨m, h1, h3, fun i hi j hj => ?_⟩
  rw [h4 i hi j hj]
  by_cases hu : Under nodes isUnder i j
  · by_cases hb : Between nodes isUnder i j <;> simp [hu, hb]
  · simp [hu]

/-- **C121.** By default: the entry is 1 if the first node is under the second one, and no other node is between; it is 0 otherwise. -/
theorem C121_direct_edges (hn : nodes ≠ []) {fuel : Nat} (hf : 2 ≤ fuel) : ∃ m, createHasseMatrix fuel nodes isUnder = .ok m ∧ m.Square nodes.length ∧
    ∀ i < nodes.length, ∀ j < nodes.length, (m.get i j = 0 ∨ m.get i j = 1) ∧ (m.get i j = 1 ↔ Under nodes isUnder i j ∧ ¬ Between nodes isUnder i j) := by
  obtain ⟨m, _, h2, h3, h4⟩ := hasse_full (isUnder := isUnder) hn hf
  refine ⟨_, h2, matMod2_square h3, fun i hi j hj => ?_⟩
  rw [matMod2_get h3 hi hj, h4 i hi j hj]
  by_cases hu : Under nodes isUnder i j
  · by_cases hb : Between nodes isUnder i j <;> simp [hu, hb]
  · simp [hu]

open Classical in
/-- **C121.** For a transitive and antisymmetric relation on different nodes nothing is lost: a node is under another one if and only if there is a path of direct edges. -/
theorem C121_paths (hn : nodes ≠ []) (hd : nodes.Nodup) (htrans : ∀ a ∈ nodes, ∀ b ∈ nodes, ∀ c ∈ nodes, isUnder a b = true → isUnder b c = true → isUnder a c = true)
    (hanti : ∀ a ∈ nodes, ∀ b ∈ nodes, isUnder a b = true → isUnder b a = true → a = b) {fuel : Nat} (hf : 2 ≤ fuel) :
    ∃ m, createHasseMatrix fuel nodes isUnder = .ok m ∧ ∀ i j, i < nodes.length → j < nodes.length →
      (Relation.TransGen (fun x y => x < nodes.length ∧ y < nodes.length ∧ m.get x y = 1) i j ↔ i ≠ j ∧ ∃ a b, nodes[i]? = some a ∧ nodes[j]? = some b ∧ isUnder a b = true) := by
  obtain ⟨m, h1, _, h3⟩ := C121_direct_edges (isUnder := isUnder) hn hf
  refine ⟨m, h1, fun i j hi hj => ?_⟩
  clear hi hj
  have htr : ∀ x y z, Under nodes isUnder x y → Under nodes isUnder y z → Under nodes isUnder x z := by
    rintro x y z ⟨n1, a, b, ha, hb, h1⟩ ⟨n2, b', c, hb', hc, h2⟩
    rw [hb] at hb'
    cases hb'
    have ma := List.mem_of_getElem? ha
    have mb := List.mem_of_getElem? hb
    have mc := List.mem_of_getElem? hc
    refine ⟨?_, a, c, ha, hc, htrans a ma b mb c mc h1 h2⟩
    rintro rfl
    rw [ha] at hc
    cases hc
    have := hanti a ma b mb h1 h2
    subst this
    obtain ⟨p, p'⟩ := List.getElem?_eq_some_iff.1 ha
    obtain ⟨q, q'⟩ := List.getElem?_eq_some_iff.1 hb
    exact n1 ((hd.getElem_inj_iff).1 (p'.trans q'.symm))
  constructor
  · intro h
    show Under nodes isUnder i j
    induction h with
    | single h => exact (((h3 _ h.1 _ h.2.1).2).1 h.2.2).1
    | tail _ h ih => exact htr _ _ _ ih (((h3 _ h.1 _ h.2.1).2).1 h.2.2).1
  · have key : ∀ (d i j : Nat), ((List.range nodes.length).filter fun k => Under nodes isUnder i k ∧ Under nodes isUnder k j).length ≤ d → Under nodes isUnder i j →
        Relation.TransGen (fun x y => x < nodes.length ∧ y < nodes.length ∧ m.get x y = 1) i j := by
      intro d
      induction d with
      | zero =>
        intro i j hl hu
        refine .single ⟨hu.lt.1, hu.lt.2, ((h3 _ hu.lt.1 _ hu.lt.2).2).2 ⟨hu, ?_⟩⟩
        rintro ⟨k, q1, q2⟩
        have : k ∈ (List.range nodes.length).filter fun k => Under nodes isUnder i k ∧ Under nodes isUnder k j := by
          simp [q1, q2, q1.lt.2]
        rw [List.length_eq_zero_iff.1 (Nat.le_zero.1 hl)] at this
        cases this
      | succ d ih =>
        intro i j hl hu
        by_cases hb : Between nodes isUnder i j
        · obtain ⟨k, q1, q2⟩ := hb
          have hk : k ∈ (List.range nodes.length).filter fun k => Under nodes isUnder i k ∧ Under nodes isUnder k j := by
            simp [q1, q2, q1.lt.2]
          have less : ∀ (P : Nat → Prop) [DecidablePred P], (∀ x, P x → Under nodes isUnder i x ∧ Under nodes isUnder x j) → ¬ P k →
              ((List.range nodes.length).filter fun x => P x).length ≤ d := by
            intro P _ hP hPk
            have e : (List.range nodes.length).filter (fun x => P x) = ((List.range nodes.length).filter fun k => Under nodes isUnder i k ∧ Under nodes isUnder k j).filter fun x => P x := by
              rw [List.filter_filter]
              apply List.filter_congr
              intro x _
              by_cases hx : P x
              · simp [hx, hP x hx]
              · simp [hx]
            rw [e]
            have := (List.length_filter_lt_length_iff_exists (p := fun x => decide (P x))).2 ⟨k, hk, by simpa using hPk⟩
            omega
          refine (ih i k (less _ ?_ ?_) q1).trans (ih k j (less _ ?_ ?_) q2)
          · rintro x ⟨r1, r2⟩
            exact ⟨r1, htr _ _ _ r2 q2⟩
          · rintro ⟨_, r⟩
            exact r.1 rfl
          · rintro x ⟨r1, r2⟩
            exact ⟨htr _ _ _ q1 r1, r2⟩
          · rintro ⟨r, _⟩
            exact r.1 rfl
        · exact .single ⟨hu.lt.1, hu.lt.2, ((h3 _ hu.lt.1 _ hu.lt.2).2).2 ⟨hu, hb⟩⟩
    intro h
    exact key _ i j le_rfl h

/-- **C121.** Without nodes there is a TypeError. -/
theorem C121_empty (fuel : Nat) (w : Bool) : createHasseMatrix fuel ([] : List α) isUnder w = .error .typeError := rfl

/-- divisors of 12, ordered by divisibility -/
example : createHasseMatrix 2 [1, 2, 3, 4, 6, 12] (fun a b => decide (a ∣ b)) true =
    .ok [[0, 1, 1, 2, 2, 2], [0, 0, 0, 1, 1, 2], [0, 0, 0, 0, 1, 2], [0, 0, 0, 0, 0, 1], [0, 0, 0, 0, 0, 1], [0, 0, 0, 0, 0, 0]] := by decide +kernel

example : ([1, 2, 3, 4, 6, 12] : List Nat) ≠ [] ∧ [1, 2, 3, 4, 6, 12].Nodup ∧
    (∀ a ∈ [1, 2, 3, 4, 6, 12], ∀ b ∈ [1, 2, 3, 4, 6, 12], ∀ c ∈ [1, 2, 3, 4, 6, 12], decide (a ∣ b) = true → decide (b ∣ c) = true → decide (a ∣ c) = true) ∧
    (∀ a ∈ [1, 2, 3, 4, 6, 12], ∀ b ∈ [1, 2, 3, 4, 6, 12], decide (a ∣ b) = true → decide (b ∣ a) = true → a = b) := by decide

end
end Verif.A
