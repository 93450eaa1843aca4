import Verif.Perm.Props
import Verif.SetPart.Lattice

/-!
# C17: `cycle_partition`
-/

namespace Verif.P
open Verif.Py Verif.SP

/-- perm/metributes/cycle_partition/__init__.py:4-12.  The partition has no labels. -/
def Perm.cyclePartition (p : Perm) : Except Err (SetPart Unit) :=
  if p.neutral then newPart []
  else
    match p.cycles with
    | .error e => .error e
    | .ok cycles => newPart (cycles.map (·.map Int.ofNat))

/-- **C17.** `cycle_partition` is a partition of the natural numbers.  It joins `a` and `b` iff some power of the permutation
maps `a` to `b` (and, for periodic permutations, `a` is in the first period). -/
theorem C17_cycle_partition (p : Perm) (hp : Constructed p) :
    ∃ q, p.cyclePartition = .ok q ∧ q.domain = .N ∧
      (∀ a b : Int, a ≠ b → q.pairInSameBlock a b = true → 0 ≤ a ∧ 0 ≤ b) ∧
      ∀ a b : Nat, a ≠ b →
        (q.pairInSameBlock a b = true ↔ (∀ l, p.perilen = some l → a < l) ∧ ∃ n, p.get^[n] a = b) := by
  obtain ⟨cs, h1, h2, h3, h4, _, _⟩ := C10_cycles p hp
  have hcyc : ∀ c ∈ cs, IsCycle p.get c := by
    intro c hc
    refine ⟨(h4 c hc).1, (List.nodup_flatten.1 h2).1 c hc, ?_⟩
    rintro x y ⟨i, hi, rfl, rfl⟩
    exact (h4 c hc).2 i hi
  have hrun : p.cyclePartition = newPart (cs.map (·.map Int.ofNat)) := by
    unfold Perm.cyclePartition
    rw [h1]
    split
    · next hn =>
      have hm := hp.wf.neutral_iff.1 hn
      have : cs = [] := by
        unfold Perm.cycles at h1
        rw [if_pos hn] at h1
        cases h1; rfl
      rw [this]; rfl
    · rfl
  have hno : NoOverlap (cs.map (·.map Int.ofNat)) := by
    have hflat : (cs.map (·.map Int.ofNat)).flatten.Nodup := by
      rw [← List.map_flatten]
      exact h2.map (fun _ _ h => Int.ofNat.inj h)
    exact noOverlap_iff.2 (nodup_filter_flatten hflat _)
  obtain ⟨q, q1, q2, q3, _, q5⟩ := (C37_construction (L := Unit) (cs.map (·.map Int.ofNat)) .N).1 hno
  have hmem : ∀ a b : Int, (∃ B ∈ cs.map (·.map Int.ofNat), a ∈ B ∧ b ∈ B) ↔
      ∃ c ∈ cs, (∃ x ∈ c, (x : Int) = a) ∧ ∃ y ∈ c, (y : Int) = b := by
    intro a b
    simp [List.mem_map]
  refine ⟨q, by rw [hrun, q1], q3, ?_, ?_⟩
  · intro a b hne hab
    obtain ⟨c, _, ⟨x, _, hx⟩, ⟨y, _, hy⟩⟩ := (hmem a b).1 ((q5 a b hne).1 hab)
    omega
  · intro a b hab
    rw [q5 a b (by exact_mod_cast hab), hmem]
    constructor
    · rintro ⟨c, hc, ⟨x, hx, hxa⟩, ⟨y, hy, hyb⟩⟩
      have hxa : x = a := by exact_mod_cast hxa
      have hyb : y = b := by exact_mod_cast hyb
      subst hxa hyb
      refine ⟨((h3 x).1 (List.mem_flatten.2 ⟨c, hc, hx⟩)).2, ?_⟩
      obtain ⟨i, hi, rfl⟩ := List.getElem_of_mem hx
      obtain ⟨j, hj, rfl⟩ := List.getElem_of_mem hy
      refine ⟨j + c.length - i, ?_⟩
      rw [(hcyc c hc).iterate hi]
      congr 1
      rw [show i + (j + c.length - i) = j + c.length by omega, Nat.add_mod_right, Nat.mod_eq_of_lt hj]
    · rintro ⟨hl, n, hn⟩
      have hmoved : p.get a ≠ a := by
        intro h
        exact hab (by rw [← hn, Function.iterate_fixed h])
      obtain ⟨c, hc, hac⟩ := List.mem_flatten.1 ((h3 a).2 ⟨hmoved, hl⟩)
      refine ⟨c, hc, ⟨a, hac, rfl⟩, b, ?_, rfl⟩
      obtain ⟨i, hi, rfl⟩ := List.getElem_of_mem hac
      rw [← hn, (hcyc c hc).iterate hi]
      exact List.getElem_mem _

/-- `Perm([1, 0, 3, 4, 2], perilen=5)` joins 0 and 1 but not 5 and 6, although it maps 5 to 6. -/
example : (Perm.cyclePartition ⟨false, [(0, 1), (1, 0), (2, 3), (3, 4), (4, 2)], some 5, 5⟩).map
    (fun q => (q.blocks, q.pairInSameBlock 5 6)) = .ok ([[0, 1], [2, 3, 4]], false) := by decide

end Verif.P
