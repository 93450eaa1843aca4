import Verif.Boolf.Props97
import Verif.Boolf.Props58

/-! # C177: the symmetry of a family divides the number of true places -/

namespace Verif.BF
open Verif.Py Verif.BV Verif.P Verif.W Verif.SP
open Verif.A hiding Mat

theorem card_dvd_xor (S T : Finset Nat) (h0 : 0 ∈ S) (hS : ∀ a ∈ S, ∀ b ∈ S, a ^^^ b ∈ S) (hT : ∀ t ∈ T, ∀ s ∈ S, t ^^^ s ∈ T) : S.card ∣ T.card := by
  rw [Finset.card_eq_sum_card_image (fun t => S.image (t ^^^ ·)) T]
  apply Finset.dvd_sum
  intro c hc
  obtain ⟨t, ht, rfl⟩ := Finset.mem_image.1 hc
  have hi : (S.image (t ^^^ ·)).card = S.card :=
    Finset.card_image_of_injective _ fun a b h => by simpa using congrArg (t ^^^ ·) h
  have : (T.filter fun u => S.image (u ^^^ ·) = S.image (t ^^^ ·)) = S.image (t ^^^ ·) := by
    ext u
    rw [Finset.mem_filter, Finset.mem_image]
    constructor
    · rintro ⟨_, h⟩
      have : u ∈ S.image (u ^^^ ·) := Finset.mem_image.2 ⟨0, h0, by simp⟩
      rw [h, Finset.mem_image] at this
      exact this
    · rintro ⟨s, hs, rfl⟩
      refine ⟨hT t ht s hs, ?_⟩
      ext w
      rw [Finset.mem_image, Finset.mem_image]
      constructor
      · rintro ⟨r, hr, rfl⟩; exact ⟨s ^^^ r, hS s hs r hr, by rw [Nat.xor_assoc]⟩
      · rintro ⟨r, hr, rfl⟩; exact ⟨s ^^^ r, hS s hs r hr, by rw [Nat.xor_assoc, ← Nat.xor_assoc s s r, Nat.xor_self, Nat.zero_xor]⟩
  rw [this, hi]

theorem Labelling.has_block {p : SetPart Boolf} {N : Nat} {lab : Nat → Boolf} (h : Labelling p N lab) {j : Nat} (hj : j < N) :
    ∃ B, p.getBlockFromLabel (lab j) = some B := by
  classical
  refine ⟨((List.range N).filter fun i => lab i = lab j).map fun i : Nat => (i : Int), (h.block _ _).2 ⟨?_, ?_, fun x => ?_⟩⟩
  · intro h
    have : (j : Int) ∈ ((List.range N).filter fun i => lab i = lab j).map fun i : Nat => (i : Int) :=
      List.mem_map.2 ⟨j, List.mem_filter.2 ⟨List.mem_range.2 hj, by simp⟩, rfl⟩
    rw [h] at this
    cases this
  · rw [List.pairwise_map]
    exact (List.pairwise_lt_range.filter _).imp fun h => by exact_mod_cast h
  · simp only [List.mem_map, List.mem_filter, List.mem_range, decide_eq_true_eq]
    constructor
    · rintro ⟨i, ⟨i1, i2⟩, rfl⟩; exact ⟨i, i1, rfl, i2⟩
    · rintro ⟨i, i1, rfl, i2⟩; exact ⟨i, ⟨i1, i2⟩, rfl⟩

/-- **C177.** The number of elements of each block of `ec_family` divides the number of true places of the root. -/
theorem C177_family (f : Boolf) (hf : Reach f) (hc : f.isConstant = false) (E : EcPart) (hE : f.ecFamily = .ok E) (g : Boolf) (B : List Int)
    (hB : E.part.getBlockFromLabel g = some B) : B.length ∣ f.root.weight := by
  have ha : f.adicity ≤ 10 := by
    by_contra ha
    rw [(C94_family f hf.obj).2.2 hc (by omega)] at hE
    cases hE
  obtain ⟨q, lab, h1, h2, h3⟩ := ecFamily_spec hf.canon.good hc ha
  rw [hE] at h1
  cases h1
  have hs := hf.canon.toSound
  have hN : 0 < 2 ^ f.valency := Nat.two_pow_pos _
  -- the block of 0
  obtain ⟨B0, hB0⟩ := h2.has_block hN
  have hlen : B.length = B0.length := by
    have a1 := (C169_family f hf _ hE g B hB).1
    have a2 := (C169_family f hf _ hE _ B0 hB0).1
    have a3 := a1.trans a2.symm
    have : 0 < q.blockLabels.length := by
      rcases Nat.eq_zero_or_pos q.blockLabels.length with h | h
      · simp only [h, Nat.zero_mul, List.prod_singleton] at a1; omega
      · exact h
    exact Nat.eq_of_mul_eq_mul_left this a3
  rw [hlen]
  obtain ⟨b1, b2, b3⟩ := (h2.block _ B0).1 hB0
  classical
  have hmem : ∀ i, i < 2 ^ f.valency → (lab i = lab 0 ↔ ∀ a, (f.eval fun x => a x ^^ i.testBit (f.atomvals.idxOf x)) = f.eval a) := by
    intro i hi
    have e0 : ∀ a, (lab 0).eval a = f.eval a := fun a => by rw [(h3 0 hN).2]; simp
    constructor
    · intro h a
      rw [← (h3 i hi).2, h, e0]
    · intro h
      exact (h3 i hi).1.ext (h3 0 hN).1 fun a => by rw [(h3 i hi).2, h, e0]
  have hcard : B0.length = ((Finset.range (2 ^ f.valency)).filter fun i => lab i = lab 0).card := by
    have hn : B0.Nodup := b2.imp fun h => ne_of_lt h
    rw [← List.toFinset_card_of_nodup hn]
    have : B0.toFinset = ((Finset.range (2 ^ f.valency)).filter fun i => lab i = lab 0).image (fun i : Nat => (i : Int)) := by
      ext x
      simp only [List.mem_toFinset, b3, Finset.mem_image, Finset.mem_filter, Finset.mem_range]
      constructor
      · rintro ⟨i, h1, h2, h3⟩; exact ⟨i, ⟨h1, h3⟩, h2.symm⟩
      · rintro ⟨i, ⟨h1, h3⟩, h2⟩; exact ⟨i, h1, h2.symm, h3⟩
    rw [this, Finset.card_image_of_injective _ Nat.cast_injective]
  rw [hcard, root_weight_card hf]
  apply card_dvd_xor
  · exact Finset.mem_filter.2 ⟨Finset.mem_range.2 hN, rfl⟩
  · intro a ha b hb
    rw [Finset.mem_filter, Finset.mem_range] at ha hb ⊢
    have hab := Nat.xor_lt_two_pow ha.1 hb.1
    refine ⟨hab, (hmem _ hab).2 fun x => ?_⟩
    rw [← (hmem a ha.1).1 ha.2 x, ← (hmem b hb.1).1 hb.2]
    congr 1
    funext y
    rw [Nat.testBit_xor]
    cases x y <;> cases a.testBit (f.atomvals.idxOf y) <;> cases b.testBit (f.atomvals.idxOf y) <;> rfl
  · intro t ht i hi
    rw [Finset.mem_filter, Finset.mem_range] at ht hi ⊢
    refine ⟨Nat.xor_lt_two_pow ht.1 hi.1, ?_⟩
    rw [rootOf_eval hf.canon, xor_testBit]
    rw [rootOf_eval hf.canon, ← (hmem i hi.1).1 hi.2] at ht
    exact ht.2

/-- **C177.** In the family of a function with an odd number of true places all negations give different functions. -/
theorem C177_male (f : Boolf) (hf : Reach f) (hc : f.isConstant = false) (hm : f.isMale = true) (ha : f.adicity ≤ 10) :
    ∃ E, f.ecFamily = .ok E ∧ E.part.blockLabels.length = 2 ^ f.valency ∧ ∀ g B, E.part.getBlockFromLabel g = some B → B.length = 1 := by
  obtain ⟨E, lab, h1, h2, h3, _⟩ := (C94_family f hf.obj).2.1 hc ha
  have hone : ∀ g B, E.part.getBlockFromLabel g = some B → B.length = 1 := by
    intro g B hB
    have hd := C177_family f hf hc E h1 g B hB
    obtain ⟨_, _, b, hb⟩ := C169_family f hf E h1 g B hB
    have hodd : f.root.weight % 2 ≠ 0 := of_decide_eq_true hm
    cases b with
    | zero => exact hb
    | succ b =>
      exfalso
      apply hodd
      rw [hb, Nat.pow_succ] at hd
      exact Nat.mod_eq_zero_of_dvd (dvd_trans (Dvd.intro_left _ rfl) hd)
  refine ⟨E, h1, ?_, hone⟩
  obtain ⟨B, hB⟩ := h3.has_block (Nat.two_pow_pos f.valency)
  have := (C169_family f hf E h1 _ B hB).1
  rw [hone _ B hB, h2, Nat.mul_one, List.prod_singleton] at this
  exact this

/-- **C177.** The size of a family times the number of true places is a multiple of 2^valency. -/
theorem C177_size (f : Boolf) (hf : Reach f) (hc : f.isConstant = false) (E : EcPart) (hE : f.ecFamily = .ok E) :
    2 ^ f.valency ∣ E.part.blockLabels.length * f.root.weight := by
  have ha : f.adicity ≤ 10 := by
    by_contra ha
    rw [(C94_family f hf.obj).2.2 hc (by omega)] at hE
    cases hE
  obtain ⟨E', lab, h1, h2, h3, _⟩ := (C94_family f hf.obj).2.1 hc ha
  rw [hE] at h1
  cases h1
  obtain ⟨B, hB⟩ := h3.has_block (Nat.two_pow_pos f.valency)
  have := (C169_family f hf E hE _ B hB).1
  rw [h2, List.prod_singleton] at this
  rw [← this]
  exact Nat.mul_dvd_mul_left _ (C177_family f hf hc E hE _ B hB)

/-- The conjunction (one true place) has four negated versions, the exclusive or (two true places) has two. -/
example : (do return (← (← newTT (.list [0, 0, 0, 1])).ecFamily).part.blockLabels.length) = .ok 4 ∧
    (do return (← (← newTT (.list [0, 1, 1, 0])).ecFamily).part.blockLabels.length) = .ok 2 := by decide +kernel

end Verif.BF
