import Verif.Boolf.Model24
import Verif.Boolf.Props5
import Verif.Boolf.Props6
import Verif.Boolf.Props12
import Verif.Boolf.Props32

/-!
# C146: walsh_spectrum_abs, walsh_spectrum_layered, walsh_spectrum_abs_layered
-/

namespace Verif.BF
open Verif.Py Verif.BV Verif.P Verif.W Finset
open Verif.A hiding Mat

/-- **C146.** The absolute spectrum has the absolute values of the spectrum, and layer `w` of a layered one has the entries at the places with `w` binary digits 1,
in ascending order of the places.  The exceptions are those of the spectrum. -/
theorem C146_variants (f : Boolf) (hf : Obj f) :
    (∀ n : Nat, f.adicity ≤ n → ∃ w v l a, f.walshSpectrum (.arity n) = .ok w ∧ f.walshSpectrumAbs (.arity n) = .ok v ∧
      f.walshSpectrumLayered (.arity n) = .ok l ∧ f.walshSpectrumAbsLayered (.arity n) = .ok a ∧
      v.length = 2 ^ n ∧ l.length = n + 1 ∧ a.length = n + 1 ∧ (∀ (k : Nat) (x : Int), w[k]? = some x → v[k]? = some |x|) ∧
      ∀ i ≤ n, l[i]?.map (List.map some) = some (((List.range (2 ^ n)).filter fun k => ones n k = i).map fun k => w[k]?) ∧
        a[i]?.map (List.map some) = some (((List.range (2 ^ n)).filter fun k => ones n k = i).map fun k => v[k]?)) ∧
    (∀ arg e, f.walshSpectrum arg = .error e → f.walshSpectrumAbs arg = .error e ∧ f.walshSpectrumLayered arg = .error e ∧ f.walshSpectrumAbsLayered arg = .error e) ∧
    f.walshSpectrumAbs .noArg = f.walshSpectrumAbs (.arity f.adicity) ∧ f.walshSpectrumLayered .noArg = f.walshSpectrumLayered (.arity f.adicity) ∧
    f.walshSpectrumAbsLayered .noArg = f.walshSpectrumAbsLayered (.arity f.adicity) := by
  obtain ⟨c1, _, _, c4⟩ := C71_spectrum f hf
  refine ⟨fun n hn => ?_, fun arg e he => ?_, ?_, ?_, ?_⟩
  · obtain ⟨w, w1, w2, _⟩ := c1 n hn
    obtain ⟨l, l1, l2, l3⟩ := (C78_layers w).1 n w2
    obtain ⟨a, a1, a2, a3⟩ := (C78_layers (w.map fun x => |x|)).1 n (by simpa using w2)
    refine ⟨w, _, l, a, w1, by unfold Boolf.walshSpectrumAbs; rw [w1]; rfl, by unfold Boolf.walshSpectrumLayered; rw [w1]; exact l1,
      by unfold Boolf.walshSpectrumAbsLayered Boolf.walshSpectrumAbs; rw [w1]; exact a1, by simpa using w2, l2, a2, fun k x hk => by rw [List.getElem?_map, hk]; rfl,
      fun i hi => ⟨l3 i hi, a3 i hi⟩⟩
  · unfold Boolf.walshSpectrumAbsLayered Boolf.walshSpectrumAbs Boolf.walshSpectrumLayered
    rw [he]
    exact ⟨rfl, rfl, rfl⟩
  · unfold Boolf.walshSpectrumAbs; rw [c4]
  · unfold Boolf.walshSpectrumLayered; rw [c4]
  · unfold Boolf.walshSpectrumAbsLayered Boolf.walshSpectrumAbs; rw [c4]

/-! ## signed permutations -/

theorem surj_of_inj {N : Nat} {p : Nat → Nat} (hlt : ∀ x < N, p x < N) (hinj : ∀ x < N, ∀ y < N, p x = p y → x = y) : ∀ y < N, ∃ x < N, p x = y := by
  have himg : (Finset.range N).image p = Finset.range N := by
    apply Finset.eq_of_subset_of_card_le
    · intro y hy
      obtain ⟨j, hj, rfl⟩ := Finset.mem_image.1 hy
      exact Finset.mem_range.2 (hlt j (Finset.mem_range.1 hj))
    · rw [Finset.card_image_of_injOn fun i hi j hj hij => hinj i (Finset.mem_range.1 (Finset.mem_coe.1 hi)) j (Finset.mem_range.1 (Finset.mem_coe.1 hj)) hij]
  intro y hy
  obtain ⟨j, hj, rfl⟩ := Finset.mem_image.1 (himg ▸ Finset.mem_range.2 hy)
  exact ⟨j, Finset.mem_range.1 hj, rfl⟩

theorem map_range_perm {N : Nat} {p : Nat → Nat} (hlt : ∀ x < N, p x < N) (hinj : ∀ x < N, ∀ y < N, p x = p y → x = y) : ((List.range N).map p).Perm (List.range N) := by
  rw [List.perm_ext_iff_of_nodup (List.Nodup.map_on (fun x hx y hy h => hinj x (List.mem_range.1 hx) y (List.mem_range.1 hy) h) List.nodup_range) List.nodup_range]
  intro y
  rw [List.mem_map, List.mem_range]
  constructor
  · rintro ⟨x, hx, rfl⟩
    exact hlt x (List.mem_range.1 hx)
  · intro hy
    obtain ⟨x, hx, rfl⟩ := surj_of_inj hlt hinj y hy
    exact ⟨x, List.mem_range.2 hx, rfl⟩

theorem eq_of_low_bits {n i j : Nat} (hi : i < 2 ^ n) (hj : j < 2 ^ n) (h : ∀ x < n, i.testBit x = j.testBit x) : i = j := by
  apply Nat.eq_of_testBit_eq
  intro x
  by_cases hx : x < n
  · exact h x hx
  · have hp : 2 ^ n ≤ 2 ^ x := Nat.pow_le_pow_right (by omega) (by omega)
    rw [Nat.testBit_lt_two_pow (by omega), Nat.testBit_lt_two_pow (by omega)]

section
variable {n : Nat} {p : Nat → Nat} (hlt : ∀ x < n, p x < n) (hinj : ∀ x < n, ∀ y < n, p x = p y → x = y)
include hlt hinj

theorem ones_pull {j k : Nat} (h : ∀ x < n, k.testBit x = j.testBit (p x)) : ones n k = ones n j := by
  unfold ones
  rw [← (map_range_perm hlt hinj).countP_eq j.testBit, List.countP_map]
  apply List.countP_congr
  intro x hx
  rw [h x (List.mem_range.1 hx)]
  rfl

theorem chi_pull {i j k ψ S : Nat} (hk : ∀ x < n, k.testBit x = j.testBit (p x)) (hψ : ∀ x < n, ψ.testBit x = (i.testBit (p x)).xor (S.testBit x)) :
    chi n i j = chi n ψ k * chi n S k := by
  rw [chi_mul]
  unfold chi
  symm
  refine prod_nbij p (fun x hx => mem_range.2 (hlt x (mem_range.1 hx))) (fun x hx y hy h => hinj x (mem_range.1 (mem_coe.1 hx)) y (mem_range.1 (mem_coe.1 hy)) h) ?_ ?_
  · intro y hy
    obtain ⟨x, hx, rfl⟩ := surj_of_inj hlt hinj y (mem_range.1 (mem_coe.1 hy))
    exact ⟨x, mem_coe.2 (mem_range.2 hx), rfl⟩
  · intro x hx
    have hx := mem_range.1 hx
    rw [Nat.testBit_xor, hψ x hx, hk x hx]
    cases i.testBit (p x) <;> cases S.testBit x <;> rfl
end

theorem absval_lt {s : SG.SigPerm} (hs : SG.Finite s) {n : Nat} (hn : s.length ≤ n) : ∀ x < n, (logicAbs (s.value x)).toNat < n := by
  intro x hx
  by_contra hc
  have hfix := ((SG.C31_sequence s hs).2.2.2.2.1 n).1 hn (logicAbs (s.value x)).toNat (by omega)
  have : (logicAbs (s.value (logicAbs (s.value x)).toNat)).toNat = (logicAbs (s.value x)).toNat := by
    rw [hfix]
    unfold logicAbs
    omega
  have := value_inj hs this
  omega

theorem spectrum_action {f g : Boolf} (hf : Sound f) {s : SG.SigPerm} (hs : SG.Finite s) (he : ∀ a, g.eval a = f.eval fun x => lit a (s.value x))
    {n : Nat} (hn : s.length ≤ n) (ha : f.adicity ≤ n) {j k : Nat} (hj : j < 2 ^ n) (hk : k < 2 ^ n) (hjk : ∀ x < n, k.testBit x = j.testBit (logicAbs (s.value x)).toNat) :
    ent (fwht (bits n fun i => g.eval i.testBit)) j =
      chi n (valB ((List.range n).map fun x => decide (s.value x < 0))) k * ent (fwht (bits n fun i => f.eval i.testBit)) k := by
  have hlt := absval_lt hs hn
  have hinj : ∀ x < n, ∀ y < n, (logicAbs (s.value x)).toNat = (logicAbs (s.value y)).toNat → x = y := fun x _ y _ h => value_inj hs h
  rw [fwht_spec (bits_length _ _) hj, fwht_spec (bits_length _ _) hk, mul_sum]
  let ψ : Nat → Nat := fun i => valB ((List.range n).map fun x => lit i.testBit (s.value x))
  have hψlt : ∀ i, ψ i < 2 ^ n := fun i => valB_range_lt _ _
  have hψ : ∀ i x, x < n → (ψ i).testBit x = (i.testBit (logicAbs (s.value x)).toNat).xor (decide (s.value x < 0)) := fun i x hx => by
    simp only [ψ]
    rw [testBit_valB_range]
    simp [hx, lit]
  have hψinj : ∀ i < 2 ^ n, ∀ i' < 2 ^ n, ψ i = ψ i' → i = i' := fun i hi i' hi' h => by
    apply eq_of_low_bits hi hi'
    intro y hy
    obtain ⟨x, hx, rfl⟩ := surj_of_inj hlt hinj y hy
    have h1 := hψ i x hx
    rw [h, hψ i' x hx] at h1
    revert h1
    cases i.testBit (logicAbs (s.value x)).toNat <;> cases i'.testBit (logicAbs (s.value x)).toNat <;> cases decide (s.value x < 0) <;> simp
  refine sum_nbij ψ (fun i _ => mem_range.2 (hψlt i)) (fun i hi i' hi' h => hψinj i (mem_range.1 (mem_coe.1 hi)) i' (mem_range.1 (mem_coe.1 hi')) h) ?_ ?_
  · intro y hy
    obtain ⟨x, hx, rfl⟩ := surj_of_inj (fun i _ => hψlt i) hψinj y (mem_range.1 (mem_coe.1 hy))
    exact ⟨x, mem_coe.2 (mem_range.2 hx), rfl⟩
  · intro i hi
    rw [ent_bits (mem_range.1 hi), ent_bits (hψlt i), he]
    have hfe : (f.eval fun x => lit i.testBit (s.value x)) = f.eval (ψ i).testBit := Boolf.eval_congr fun x hx => by
      rw [hψ i x (lt_of_lt_of_le (hf.adic_lt hx) ha)]
      rfl
    rw [hfe, chi_pull (i := i) (ψ := ψ i) (S := valB ((List.range n).map fun x => decide (s.value x < 0))) hlt hinj hjk fun x hx => by
      rw [hψ i x hx, testBit_valB_range]
      simp [hx]]
    ring

theorem chi_abs (e i k : Nat) : |chi e i k| = 1 := by
  unfold chi
  rw [Finset.abs_prod]
  exact prod_eq_one fun t _ => by split <;> rfl

/-- **C146.** Under a signed permutation of the arguments only places and signs in the spectrum change: entry `j` of the new absolute spectrum is entry `k` of the old
one, if digit `x` of `k` is digit `|s(x)|` of `j`.  So each layer of the new absolute spectrum is a permutation of that of the old one. -/
theorem C146_clan (f : Boolf) (hf : Reach f) (s : SG.SigPerm) (hs : SG.Finite s) (n : Nat) (hn : s.length ≤ n) (ha : f.adicity ≤ n) :
    ∃ g u v a b, f.applySigperm (.sigperm s) = .ok g ∧ g.adicity ≤ n ∧ f.walshSpectrumAbs (.arity n) = .ok u ∧ g.walshSpectrumAbs (.arity n) = .ok v ∧
      f.walshSpectrumAbsLayered (.arity n) = .ok a ∧ g.walshSpectrumAbsLayered (.arity n) = .ok b ∧
      (∀ j k : Nat, j < 2 ^ n → k < 2 ^ n → (∀ x < n, k.testBit x = j.testBit (if s.value x < 0 then (-s.value x - 1).toNat else (s.value x).toNat)) → v[j]? = u[k]?) ∧
      List.Forall₂ List.Perm a b := by
  obtain ⟨g, g1, g2, g3, g4⟩ := action hf.obj hs
  have hfs := hf.canon.toSound
  have hgc := g3 hf.canon
  have hlt := absval_lt hs hn
  have hinj : ∀ x < n, ∀ y < n, (logicAbs (s.value x)).toNat = (logicAbs (s.value y)).toNat → x = y := fun x _ y _ h => value_inj hs h
  have hga : g.adicity ≤ n := by
    rw [hgc.toSound.adic]
    intro y hy
    by_contra hc
    refine absurd ((hgc.mem_iff y).1 hy) ?_
    rintro ⟨b, hb⟩
    apply hb
    rw [g4, g4]
    refine Boolf.eval_congr fun x hx => ?_
    have hx' := hlt x (lt_of_lt_of_le (hfs.adic_lt hx) ha)
    unfold lit upd
    rw [if_neg (by omega), if_neg (by omega)]
  have lf := fwht_length (bits_length n fun i => f.eval i.testBit)
  have lg := fwht_length (bits_length n fun i => g.eval i.testBit)
  have uf : f.walshSpectrumAbs (.arity n) = .ok ((fwht (bits n fun i => f.eval i.testBit)).map fun x => |x|) := by
    unfold Boolf.walshSpectrumAbs; rw [walshSpectrum_eq hfs ha]; rfl
  have ug : g.walshSpectrumAbs (.arity n) = .ok ((fwht (bits n fun i => g.eval i.testBit)).map fun x => |x|) := by
    unfold Boolf.walshSpectrumAbs; rw [walshSpectrum_eq hgc.toSound hga]; rfl
  have key : ∀ j k : Nat, j < 2 ^ n → k < 2 ^ n → (∀ x < n, k.testBit x = j.testBit (logicAbs (s.value x)).toNat) →
      ((fwht (bits n fun i => g.eval i.testBit)).map fun x => |x|)[j]? = ((fwht (bits n fun i => f.eval i.testBit)).map fun x => |x|)[k]? := by
    intro j k hj hk hjk
    have h1 := spectrum_action hfs hs g4 hn ha hj hk hjk
    unfold ent at h1
    rw [List.getD_eq_getElem?_getD, List.getD_eq_getElem?_getD, List.getElem?_eq_getElem (by omega), List.getElem?_eq_getElem (by omega), Option.getD_some,
      Option.getD_some] at h1
    rw [List.getElem?_map, List.getElem?_map, List.getElem?_eq_getElem (by omega), List.getElem?_eq_getElem (by omega), Option.map_some, Option.map_some, h1, abs_mul, chi_abs,
      one_mul]
  refine ⟨g, _, _, _, _, g1, hga, uf, ug, by unfold Boolf.walshSpectrumAbsLayered; rw [uf]; exact flatToLayered_eq 0 (by simpa using lf),
    by unfold Boolf.walshSpectrumAbsLayered; rw [ug]; exact flatToLayered_eq 0 (by simpa using lg), fun j k hj hk hjk => key j k hj hk fun x hx => ?_, ?_⟩
  · rw [logicAbs_toNat]
    exact hjk x hx
  · rw [List.forall₂_map_left_iff, List.forall₂_map_right_iff]
    apply List.forall₂_same.2
    intro w _
    let σ : Nat → Nat := fun j => valB ((List.range n).map fun x => j.testBit (logicAbs (s.value x)).toNat)
    have hσlt : ∀ j, σ j < 2 ^ n := fun j => valB_range_lt _ _
    have hσ : ∀ j x, x < n → (σ j).testBit x = j.testBit (logicAbs (s.value x)).toNat := fun j x hx => by
      simp only [σ]
      rw [testBit_valB_range]
      simp [hx]
    have hσinj : ∀ i < 2 ^ n, ∀ i' < 2 ^ n, σ i = σ i' → i = i' := fun i hi i' hi' h => by
      apply eq_of_low_bits hi hi'
      intro y hy
      obtain ⟨x, hx, rfl⟩ := surj_of_inj hlt hinj y hy
      rw [← hσ i x hx, h, hσ i' x hx]
    have hperm := map_range_perm (fun j _ => hσlt j) hσinj
    have hfil := hperm.filter fun k => decide (ones n k = w)
    have e1 : ((List.range (2 ^ n)).map σ).filter (fun k => decide (ones n k = w)) = ((List.range (2 ^ n)).filter fun k => decide (ones n k = w)).map σ := by
      rw [List.filter_map]
      congr 1
      apply List.filter_congr
      intro j _
      simp only [Function.comp]
      rw [ones_pull hlt hinj (hσ j)]
    rw [e1] at hfil
    refine (hfil.map _).symm.trans ?_
    rw [List.map_map]
    refine List.Perm.of_eq (List.map_congr_left fun j hj => ?_)
    have hj' : j < 2 ^ n := List.mem_range.1 (List.mem_filter.1 hj).1
    simp only [Function.comp]
    rw [List.getD_eq_getElem?_getD, List.getD_eq_getElem?_getD, key j (σ j) hj' (hσlt j) (hσ j)]

/-- the majority of three atoms, with arity 3 -/
example : ∃ f, Reach f ∧ f.adicity = 3 ∧ f.walshSpectrumAbs = .ok [4, 2, 2, 0, 2, 0, 0, 2] ∧ f.walshSpectrumLayered = .ok [[4], [-2, -2, -2], [0, 0, 0], [2]] ∧
    f.walshSpectrumAbsLayered = .ok [[4], [2, 2, 2], [0, 0, 0], [2]] := by
  have h : newTT (.list [0, 0, 0, 1, 0, 1, 1, 1]) =
      .ok { atomvals := [0, 1, 2], root := ⟨[false, false, false, true, false, true, true, true]⟩, adicity := 3, valency := 3 } := by decide
  exact ⟨_, reach_newTT h, rfl, by decide +kernel, by decide +kernel, by decide +kernel⟩

end Verif.BF
