import Verif.Boolf.Props111
import Verif.Boolf.Props12

/-! # C198: symmetric functions are those unchanged by permutations of their atoms -/

namespace Verif.BF
open Verif.Py Verif.BV Verif.A Verif.P

theorem swap_sigperm (x y : Nat) : ∃ s, SG.Finite s ∧ ∀ i, s.value i = (Equiv.swap x y i : Nat) := by
  let n := max x y + 1
  let l : List Int := (List.range n).map fun i => ((Equiv.swap x y i : Nat) : Int)
  have hlt : ∀ i < n, Equiv.swap x y i < n := fun i hi => by
    rw [Equiv.swap_apply_def]
    split_ifs <;> omega
  have hl : (l.map (fun z => if z < 0 then (-z - 1).toNat else z.toNat)).Perm (List.range l.length) := by
    have e : l.map (fun z => if z < 0 then (-z - 1).toNat else z.toNat) = (List.range n).map fun i => Equiv.swap x y i := by
      rw [List.map_map]
      refine List.map_congr_left fun i _ => ?_
      have : ¬ ((Equiv.swap x y i : Nat) : Int) < 0 := by omega
      simp only [Function.comp_apply, if_neg this, Int.toNat_natCast]
    rw [e, show l.length = n by simp [l]]
    refine (List.perm_ext_iff_of_nodup (List.nodup_range.map (Equiv.swap x y).injective) List.nodup_range).2 fun a => ?_
    rw [List.mem_map, List.mem_range]
    refine ⟨fun ⟨i, hi, e⟩ => e ▸ hlt i (List.mem_range.1 hi), fun ha => ⟨Equiv.swap x y a, List.mem_range.2 (hlt a ha), Equiv.swap_apply_self x y a⟩⟩
  obtain ⟨s, _, s2, s3⟩ := (SG.C31_of_sequence l).1 hl
  refine ⟨s, s2, fun i => ?_⟩
  rw [s3]
  by_cases hi : i < n
  · rw [List.getElem?_map, List.getElem?_range hi]
    rfl
  · rw [List.getElem?_eq_none (by simp only [l, List.length_map, List.length_range]; omega)]
    rw [Equiv.swap_apply_of_ne_of_ne (by omega) (by omega)]
    rfl

/-- **C198.** `is_symmetric` is True iff no unsigned permutation that maps atoms to atoms changes the function. -/
theorem C198_symmetric (f : Boolf) (hf : Reach f) : ∃ b, f.isSymmetric = .ok b ∧ (b = true ↔
    ∀ s, SG.Finite s → s.unsigned = true → (∀ x ∈ f.atomvals, ∃ y ∈ f.atomvals, s.value x = (y : Int)) → f.applySigperm (.sigperm s) = .ok f) := by
  obtain ⟨b, b1, b2⟩ := C78_symmetric f hf.obj
  obtain ⟨b', b1', b3⟩ := C78_symmetric_exchange f hf.obj
  rw [b1] at b1'
  cases b1'
  refine ⟨b, b1, fun hb s hs hu hm => ?_, fun h => b3.2 fun x hx y hy key key' hex => ?_⟩
  · obtain ⟨g, q, g1, q1, h⟩ := C197_table f hf s hs
    obtain ⟨q', q1', _, q3, _⟩ := SG.C135_signed s hs
    rw [q1] at q1'
    cases q1'
    have hpos := (SG.C62_flags s hs).2.1.1 hu
    rw [g1, h.2 fun key => b2.1 hb _ _ ?_]
    have hsub : (f.atomvals.map fun x => (s.value x).toNat) ⊆ f.atomvals := by
      intro a ha
      obtain ⟨x, hx, rfl⟩ := List.mem_map.1 ha
      obtain ⟨y, hy, e⟩ := hm x hx
      rw [e, Int.toNat_natCast]
      exact hy
    have hinj : Function.Injective fun x => (s.value x).toNat := fun x y e => by
      obtain ⟨i, _, hi⟩ := (SG.C31_sequence s hs).2.2.2.1 (s.value x).toNat
      have hx := hpos x
      have hy := hpos y
      rw [hi x (Or.inl (by omega)), hi y (Or.inl (by simp only at e; omega))]
    have hnd : f.atomvals.Nodup := hf.canon.nodup
    have hp : (f.atomvals.map fun x => (s.value x).toNat).Perm f.atomvals :=
      (List.subperm_of_subset (hnd.map hinj) hsub).perm_of_length_le (by simp)
    rw [← hp.countP_eq, List.countP_map]
    exact List.countP_congr fun x _ => by
      simp only [Function.comp_apply]
      rw [(q3 key x).1 (hpos x)]
  · obtain ⟨s, s1, s2⟩ := swap_sigperm x y
    have hu : s.unsigned = true := (SG.C62_flags s s1).2.1.2 fun i => by rw [s2]; omega
    have hfix := h s s1 hu fun a ha => ⟨Equiv.swap x y a, by
      rw [Equiv.swap_apply_def]
      split_ifs <;> assumption, s2 a⟩
    obtain ⟨g, q, g1, q1, h'⟩ := C197_table f hf s s1
    rw [hfix] at g1
    cases g1
    obtain ⟨q', q1', _, q3, _⟩ := SG.C135_signed s s1
    rw [q1] at q1'
    cases q1'
    have := h'.1 rfl key
    rw [← this]
    congr 1
    refine Nat.eq_of_testBit_eq fun i => ?_
    have e := (q3 key (Equiv.swap x y i)).1 (by rw [s2]; omega)
    rw [s2, Int.toNat_natCast, Equiv.swap_apply_self] at e
    rw [e]
    obtain ⟨h1, h2, h3⟩ := hex
    rw [Equiv.swap_apply_def]
    split_ifs with c d
    · rw [c, h1]
    · rw [d, h2]
    · exact h3 i c d

/-- The majority of x0, x1, x2 is symmetric and not changed by a cycle; x0 or (x1 and x2) is neither. -/
example : (do
    let f ← new { zhe := some 104 }
    let g ← new { zhe := some 194 }
    let s ← SG.new { sequence := some [1, 2, 0] }
    let f' ← f.applySigperm (.sigperm s)
    let g' ← g.applySigperm (.sigperm s)
    return (← f.isSymmetric, f'.eq f, ← g.isSymmetric, g'.eq g)) = .ok (true, true, false, false) := by decide +kernel

end Verif.BF
