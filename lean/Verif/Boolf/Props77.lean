import Verif.Boolf.Model23
import Verif.Boolf.Props5
import Verif.Boolf.Props15

/-!
# C144: spread_sigperm_to_sigvar
-/

namespace Verif.BF
open Verif.Py Verif.BV Verif.P Verif.W
open Verif.A hiding Mat

theorem logicAbs_ite (z : Int) : logicAbs z = (((if z < 0 then (-z - 1).toNat else z.toNat : Nat)) : Int) := by
  rw [← logicAbs_toNat, Int.toNat_of_nonneg]
  unfold logicAbs
  split
  · unfold A.inv; omega
  · omega

theorem spread_step {s v : List Int} {i : Nat} {z y : Int} (hz : s[i]? = some z) (hy : v[if z < 0 then (-z - 1).toNat else z.toNat]? = some y) :
    (do logicAbsIncrease (← item s i) (← item v (← item (s.map logicAbs) i).toNat)) = logicAbsIncrease z y := by
  have h1 : item s i = .ok z := by unfold item; rw [hz]
  have h2 : item (s.map logicAbs) i = .ok (logicAbs z) := by unfold item; rw [List.getElem?_map, hz]; rfl
  have h3 : item v (logicAbs z).toNat = .ok y := by unfold item; rw [logicAbs_toNat, hy]
  rw [h1, h2]
  simp only [bind, Except.bind, h3]

/-- **C144.** Entry `i` of the result has the sign of entry `i` of the signed permutation, and its absolute value is increased by the entry of the spread vector
at that absolute value. -/
theorem C144_sigvar (s v : List Int) (hl : s.length = v.length)
    (hs : ∀ z ∈ s, (if z < 0 then (-z - 1).toNat else z.toNat) < v.length) (hv : ∀ (k : Nat) (y : Int), v[k]? = some y → 0 ≤ k + y) :
    ∃ r, spreadSigpermToSigvar s v = .ok r ∧ r.length = s.length ∧
      ∀ (i k : Nat) (y : Int), (s[i]? = some (k : Int) → v[k]? = some y → r[i]? = some (k + y)) ∧ (s[i]? = some (-(k : Int) - 1) → v[k]? = some y → r[i]? = some (-(k + y) - 1)) := by
  let val : Int → Int := fun z => v.getD (if z < 0 then (-z - 1).toNat else z.toNat) 0
  have hval : ∀ z ∈ s, v[if z < 0 then (-z - 1).toNat else z.toNat]? = some (val z) := fun z hz => by
    have := hs z hz
    simp only [val]
    rw [List.getD_eq_getElem?_getD, List.getElem?_eq_getElem this]
    rfl
  let res : Int → Int := fun z => if z < 0 then -(logicAbs z + val z) - 1 else logicAbs z + val z
  have hstep : ∀ z ∈ s, logicAbsIncrease z (val z) = .ok (res z) := fun z hz => by
    unfold logicAbsIncrease
    have := hv _ _ (hval z hz)
    simp only
    rw [if_pos (by rw [logicAbs_ite]; exact this)]
    simp only [res]
    split
    · unfold A.inv; congr 1
    · rfl
  have hr : spreadSigpermToSigvar s v = .ok ((List.range s.length).map fun i => res (s.getD i 0)) := by
    unfold spreadSigpermToSigvar
    rw [if_neg (by simpa using hl)]
    simp only [bind, Except.bind]
    apply mapM_ok
    intro i hi
    rw [List.mem_range] at hi
    have hz : s[i]? = some (s.getD i 0) := by rw [List.getD_eq_getElem?_getD, List.getElem?_eq_getElem hi]; rfl
    have := spread_step hz (hval _ (List.mem_of_getElem? hz))
    rw [hstep _ (List.mem_of_getElem? hz)] at this
    exact this
  refine ⟨_, hr, by simp, fun i k y => ⟨fun h1 h2 => ?_, fun h1 h2 => ?_⟩⟩
  · have hi := (List.getElem?_eq_some_iff.1 h1).1
    have hm := hval _ (List.mem_of_getElem? h1)
    rw [if_neg (by omega), Int.toNat_natCast, h2] at hm
    rw [List.getElem?_map, List.getElem?_range hi, Option.map_some, List.getD_eq_getElem?_getD, h1]
    simp only [Option.getD_some, res]
    rw [if_neg (by omega), ← Option.some.inj hm, logicAbs_ite, if_neg (by omega), Int.toNat_natCast]
  · have hi := (List.getElem?_eq_some_iff.1 h1).1
    have hm := hval _ (List.mem_of_getElem? h1)
    have e : (-(-(k : Int) - 1) - 1).toNat = k := by omega
    rw [if_pos (by omega), e, h2] at hm
    rw [List.getElem?_map, List.getElem?_range hi, Option.map_some, List.getD_eq_getElem?_getD, h1]
    simp only [Option.getD_some, res]
    rw [if_pos (by omega), ← Option.some.inj hm, logicAbs_ite, if_pos (by omega), e]

/-- **C144.** The exceptions: for different lengths, and for the first entry that is out of range or would get a negative absolute value. -/
theorem C144_errors (s v : List Int) :
    (s.length ≠ v.length → spreadSigpermToSigvar s v = .error .argValue) ∧
    (∀ (i : Nat) (z : Int), s.length = v.length → s[i]? = some z →
      (∀ (j : Nat) (y : Int), j < i → s[j]? = some y → ∃ u, v[if y < 0 then (-y - 1).toNat else y.toNat]? = some u ∧ 0 ≤ (if y < 0 then -y - 1 else y) + u) →
      (v[if z < 0 then (-z - 1).toNat else z.toNat]? = none → spreadSigpermToSigvar s v = .error .indexError) ∧
      (∀ u, v[if z < 0 then (-z - 1).toNat else z.toNat]? = some u → (if z < 0 then -z - 1 else z) + u < 0 → spreadSigpermToSigvar s v = .error .argValue)) := by
  constructor
  · intro h
    unfold spreadSigpermToSigvar
    rw [if_pos h]
    rfl
  · intro i z hl hz hbefore
    have hi := (List.getElem?_eq_some_iff.1 hz).1
    have habs : ∀ y : Int, logicAbs y = if y < 0 then -y - 1 else y := fun y => by
      rw [logicAbs_ite]
      split <;> omega
    have key : ∀ e : Err, (do logicAbsIncrease (← item s i) (← item v (← item (s.map logicAbs) i).toNat)) = (.error e : Except Err Int) → spreadSigpermToSigvar s v = .error e := by
      intro e he
      unfold spreadSigpermToSigvar
      rw [if_neg (by simpa using hl)]
      simp only [bind, Except.bind]
      have hsplit : List.range s.length = List.range i ++ i :: List.range' (i + 1) (s.length - i - 1) := by
        rw [List.range_eq_range', List.range_eq_range', show s.length = i + (1 + (s.length - i - 1)) by omega, ← List.range'_append_1, ← List.range'_append_1]
        simp
      rw [hsplit, List.mapM_append]
      obtain ⟨r, hr⟩ : ∃ r, (List.range i).mapM (fun i => (do logicAbsIncrease (← item s i) (← item v (← item (s.map logicAbs) i).toNat) : Except Err Int)) = .ok r := by
        refine ⟨_, mapM_ok (g := fun j => (match (do logicAbsIncrease (← item s j) (← item v (← item (s.map logicAbs) j).toNat) : Except Err Int) with | .ok x => x | .error _ => 0)) ?_⟩
        intro j hj
        rw [List.mem_range] at hj
        have hjs : s[j]? = some s[j] := List.getElem?_eq_getElem (by omega)
        obtain ⟨u, u1, u2⟩ := hbefore j _ hj hjs
        rw [spread_step hjs u1]
        unfold logicAbsIncrease
        simp only
        rw [if_pos (by rw [habs]; exact u2)]
      simp only [bind, Except.bind] at hr he
      rw [hr]
      simp only [bind, Except.bind, List.mapM_cons]
      rw [he]
    refine ⟨fun h => key _ ?_, fun u h hu => key _ ?_⟩
    · have h1 : item s i = .ok z := by unfold item; rw [hz]
      have h2 : item (s.map logicAbs) i = .ok (logicAbs z) := by unfold item; rw [List.getElem?_map, hz]; rfl
      have h3 : item v (logicAbs z).toNat = .error .indexError := by unfold item; rw [logicAbs_toNat, h]
      rw [h1, h2]
      simp only [bind, Except.bind, h3]
    · rw [spread_step hz h]
      unfold logicAbsIncrease
      simp only
      rw [if_neg (by rw [habs]; omega)]

/-- **C144.** With the spread vector of a Boolean function, a signed permutation of positions becomes one of its atoms: applying the former on the root and the
latter on the function gives corresponding results. -/
theorem C144_boolf (f : Boolf) (hf : Reach f) (h0 : f.valency ≠ 0) (s : List Int) (hl : s.length = f.valency)
    (hs : (s.map (fun z => if z < 0 then (-z - 1).toNat else z.toNat)).Perm (List.range s.length)) :
    ∃ v r ρ g h, f.spreadVector = .ok v ∧ spreadSigpermToSigvar s v = .ok r ∧ f.rootBoolf = .ok ρ ∧ f.apply r = .ok g ∧ ρ.apply s = .ok h ∧
      (r.map (fun z => if z < 0 then (-z - 1).toNat else z.toNat)).Perm f.atomvals ∧
      ∀ key key' : Nat, (∀ k x : Nat, f.atomvals[k]? = some x → key'.testBit k = key.testBit x) → g.getItem key = h.getItem key' := by
  obtain ⟨v, v1, v2, v3, v4, _⟩ := C81_spread_vector f hf.obj
  obtain ⟨ρ, ρ1, ρ2, ρ3, ρ4, ρ5, _⟩ := C81_root_boolf f hf
  have hsound := hf.canon.toSound
  have hlt : ∀ z ∈ s, (if z < 0 then (-z - 1).toNat else z.toNat) < f.valency := fun z hz => by
    rw [← hl]
    exact List.mem_range.1 (hs.mem_iff.1 (List.mem_map.2 ⟨z, hz, rfl⟩))
  obtain ⟨r, r1, r2, r3⟩ := C144_sigvar s v (by omega) (fun z hz => by rw [v2]; exact hlt z hz) (fun k y hy => by have := v4 y (List.mem_of_getElem? hy); omega)
  -- the entries of the result
  let up : Int → Int := fun z => if z < 0 then -((f.atomvals.getD (-z - 1).toNat 0 : Nat) : Int) - 1 else (f.atomvals.getD z.toNat 0 : Nat)
  have hr : r = s.map up := by
    apply List.ext_getElem?
    intro i
    rw [List.getElem?_map]
    by_cases hi : i < s.length
    · have hz : s[i]? = some s[i] := List.getElem?_eq_getElem hi
      have hb := hlt s[i] (List.getElem_mem hi)
      rw [hz, Option.map_some]
      simp only [up]
      by_cases hneg : s[i] < 0
      · rw [if_pos hneg] at hb ⊢
        obtain ⟨k, hk⟩ : ∃ k : Nat, s[i] = -(k : Int) - 1 := ⟨(-s[i] - 1).toNat, by omega⟩
        have e : (-s[i] - 1).toNat = k := by omega
        rw [e] at hb ⊢
        have hkl : k < f.atomvals.length := by rw [← hsound.val]; exact hb
        have := (r3 i k _).2 (by rw [hz, hk]) (v3 k _ (List.getElem?_eq_getElem hkl))
        rw [this, List.getD_eq_getElem?_getD, List.getElem?_eq_getElem hkl, Option.getD_some]
        congr 1
        omega
      · rw [if_neg hneg] at hb ⊢
        obtain ⟨k, hk⟩ : ∃ k : Nat, s[i] = (k : Int) := ⟨s[i].toNat, by omega⟩
        have e : s[i].toNat = k := by omega
        rw [e] at hb ⊢
        have hkl : k < f.atomvals.length := by rw [← hsound.val]; exact hb
        have := (r3 i k _).1 (by rw [hz, hk]) (v3 k _ (List.getElem?_eq_getElem hkl))
        rw [this, List.getD_eq_getElem?_getD, List.getElem?_eq_getElem hkl, Option.getD_some]
        congr 1
        omega
    · rw [List.getElem?_eq_none (by omega), List.getElem?_eq_none (by omega)]
      rfl
  have habs : r.map (fun z => if z < 0 then (-z - 1).toNat else z.toNat) = (s.map (fun z => if z < 0 then (-z - 1).toNat else z.toNat)).map fun k => f.atomvals.getD k 0 := by
    rw [hr, List.map_map, List.map_map]
    apply List.map_congr_left
    intro z _
    simp only [Function.comp, up]
    by_cases hz : z < 0
    · simp only [if_pos hz]
      rw [if_pos (by omega)]
      omega
    · simp only [if_neg hz]
      rw [if_neg (by omega), Int.toNat_natCast]
  have hperm : (r.map (fun z => if z < 0 then (-z - 1).toNat else z.toNat)).Perm f.atomvals := by
    rw [habs]
    refine (hs.map _).trans ?_
    rw [hl, hsound.val]
    have : (List.range f.atomvals.length).map (fun k => f.atomvals.getD k 0) = f.atomvals := by
      apply List.ext_getElem (by simp)
      intro i h1 h2
      simp [h2]
    rw [this]
  have hN : ∀ l : List Int, absN l = l.map (fun z => if z < 0 then (-z - 1).toNat else z.toNat) := fun l => by
    unfold absN
    apply List.map_congr_left
    intro z _
    rw [logicAbs_toNat]
  obtain ⟨g, g1, g2, g3⟩ := (apply_spec hsound (perm := r) (by rw [r2, hl]) h0).1 (by rw [hN]; exact hperm.nodup_iff.2 hsound.nodup)
  obtain ⟨h, h1, h2, h3⟩ := (apply_spec ρ2.canon.toSound (perm := s) (by rw [ρ4, hl]) (by rw [ρ4]; exact h0)).1 (by rw [hN]; exact hs.nodup_iff.2 List.nodup_range)
  refine ⟨v, r, ρ, g, h, v1, r1, ρ1, g1, h1, hperm, fun key key' hk => ?_⟩
  rw [getItem_eq g2.toSound, getItem_eq h2.toSound, g3, h3, ρ3]
  have hlits : r.map (lit key.testBit) = s.map (lit key'.testBit) := ?_
  · rw [hlits]
  rw [hr, List.map_map]
  apply List.map_congr_left
  intro z hz
  have hb := hlt z hz
  simp only [Function.comp, up, lit]
  rw [logicAbs_toNat, logicAbs_toNat]
  by_cases hneg : z < 0
  · simp only [if_pos hneg] at hb ⊢
    have hkl : (-z - 1).toNat < f.atomvals.length := by rw [← hsound.val]; exact hb
    rw [if_pos (by omega), decide_eq_true (by omega), decide_eq_true hneg, List.getD_eq_getElem?_getD, List.getElem?_eq_getElem hkl, Option.getD_some]
    rw [hk _ _ (List.getElem?_eq_getElem hkl)]
    congr 2
    omega
  · simp only [if_neg hneg] at hb ⊢
    have hkl : z.toNat < f.atomvals.length := by rw [← hsound.val]; exact hb
    rw [if_neg (by omega), decide_eq_false (by omega), decide_eq_false hneg, List.getD_eq_getElem?_getD, List.getElem?_eq_getElem hkl, Option.getD_some]
    rw [hk _ _ (List.getElem?_eq_getElem hkl), Int.toNat_natCast]

example : spreadSigpermToSigvar [1, -4, 0, 2] [0, 0, 5, 5] = .ok [1, -9, 0, 7] ∧ spreadSigpermToSigvar [1, 0] [0] = .error .argValue ∧
    spreadSigpermToSigvar [0, -3] [0, 1] = .error .indexError ∧ spreadSigpermToSigvar [-1, 1] [-1, 0] = .error .argValue := by decide

end Verif.BF
