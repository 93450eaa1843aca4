import Verif.Boolf.Reach

/-! # Objects made with `skip_deflation` -/

namespace Verif.BF
open Verif.Py Verif.BV Verif.P Verif.W
open Verif.A hiding Mat

theorem ttAtoms_spec {b c : Binv} {av : Option (List Int)} {B : List Nat} (hc : ttCheck b av = .ok ()) (h : ttAtoms b av = .ok (c, B)) :
    B.Pairwise (· < ·) ∧ c.length = 2 ^ B.length := by
  cases av with
  | none =>
    unfold ttAtoms logInt at h
    by_cases hp : isPowerOfTwo b.length = true
    · obtain ⟨n, hn⟩ := isPowerOfTwo_iff.1 hp
      rw [if_pos hp, hn, Nat.log2_two_pow] at h
      cases h
      exact ⟨List.pairwise_lt_range, by simpa using hn⟩
    · rw [if_neg hp] at h; cases h
  | some A =>
    unfold ttCheck at hc
    simp only at hc
    split at hc
    · next hd =>
      split at hc
      · next hl =>
        have hA := dedup_length_iff.1 hd
        unfold ttAtoms at h
        simp only at h
        have hne : A ≠ [] := by
          rintro rfl
          unfold pyMin at h
          cases h
        obtain ⟨m, m1, m2, m3⟩ := pyMin_ok hne
        rw [m1] at h
        simp only at h
        by_cases hm : m ≥ 0
        · have h0 : ∀ x ∈ A, 0 ≤ x := fun x hx => le_trans hm (m3 x hx)
          obtain ⟨L, hL, _⟩ := readOrder_exists (nodup_toNat hA h0)
          have hl' : b.length = 2 ^ (A.map Int.toNat).length := by simpa using hl
          obtain ⟨d, d1, d2, _⟩ := reorder_spec (nodup_toNat hA h0) hl' hL
          rw [if_pos hm, d1] at h
          cases h
          exact ⟨sorted_pairwise_lt (nodup_toNat hA h0), by rw [d2, hl', (sorted_perm _).length_eq]⟩
        · rw [if_neg hm] at h; cases h
      · cases hc
    · cases hc

theorem dep_shift {v : List Bool} {B : List Nat} (hB : B.Nodup) {k : Nat} (hk : k < B.length) :
    Dep (fun a => v.getD (valB (B.map a)) false) B[k] ↔ Dep (fun a => v.getD (valB ((List.range B.length).map a)) false) k := by
  have key : ∀ (a : Nat → Bool) (b : Bool), B.map (upd a B[k] b) = (List.range B.length).map (upd (fun i => a (B.getD i 0)) k b) := by
    intro a b
    apply List.ext_getElem?
    intro i
    rw [List.getElem?_map, List.getElem?_map]
    by_cases hi : i < B.length
    · rw [List.getElem?_eq_getElem hi, List.getElem?_range hi]
      simp only [Option.map_some, Option.some.injEq]
      unfold upd
      by_cases hik : i = k
      · subst hik; rw [if_pos rfl, if_pos rfl]
      · rw [if_neg (fun h => hik ((hB.getElem_inj_iff).1 h)), if_neg hik]; simp only [List.getD_eq_getElem?_getD, List.getElem?_eq_getElem hi]; rfl
    · rw [List.getElem?_eq_none (by omega), List.getElem?_eq_none (by simp; omega)]; rfl
  constructor
  · rintro ⟨a, ha⟩
    refine ⟨fun i => a (B.getD i 0), ?_⟩
    simp only [key] at ha
    exact ha
  · rintro ⟨a, ha⟩
    refine ⟨fun x => a (B.idxOf x), ?_⟩
    simp only [key]
    have e : ∀ b, (List.range B.length).map (upd (fun i => a (B.idxOf (B.getD i 0))) k b) = (List.range B.length).map (upd a k b) := by
      intro b
      apply List.map_congr_left
      intro i hi
      unfold upd
      split
      · rfl
      · simp only [List.getD_eq_getElem?_getD, List.getElem?_eq_getElem (List.mem_range.1 hi), Option.getD_some, hB.idxOf_getElem]
    rw [e, e]
    exact ha

theorem length_lt_iff {A : List Nat} {n : Nat} (hA : A.Pairwise (· < ·)) (hn : ∀ x ∈ A, x < n) : A.length < n ↔ ∃ k < n, k ∉ A := by
  have hnd : A.Nodup := hA.imp (fun h => Nat.ne_of_lt h)
  constructor
  · intro h
    by_contra hc
    push Not at hc
    have := (List.subperm_of_subset List.nodup_range (fun k hk => hc k (List.mem_range.1 hk))).length_le
    simp only [List.length_range] at this
    omega
  · rintro ⟨k, hk, hkA⟩
    have := (List.subperm_of_subset (List.nodup_cons.2 ⟨hkA, hnd⟩) (l₂ := List.range n) (by
      intro x hx
      rcases List.mem_cons.1 hx with rfl | hx
      · exact List.mem_range.2 hk
      · exact List.mem_range.2 (hn x hx))).length_le
    simp only [List.length_range, List.length_cons] at this
    omega

theorem Canon.lt_of_range {g : Boolf} (h : Canon g) {n : Nat} {e : List Bool → Bool} (he : ∀ a, g.eval a = e ((List.range n).map a)) :
    ∀ x ∈ g.atomvals, x < n := by
  intro x hx
  by_contra hc
  rw [h.mem_iff] at hx
  obtain ⟨a, ha⟩ := hx
  apply ha
  rw [he, he]
  congr 1
  apply List.map_congr_left
  intro i hi
  have := List.mem_range.1 hi
  unfold upd
  rw [if_neg (by omega), if_neg (by omega)]

theorem Canon.adicity_le {g : Boolf} (h : Canon g) {n : Nat} {e : List Bool → Bool} (he : ∀ a, g.eval a = e ((List.range n).map a)) :
    g.adicity ≤ n := (h.adic n).2 (h.lt_of_range he)

/-- the flag for inessential atoms is right -/
def FlagOk (f : Boolf) : Prop := f.isInflated = true ↔ ∃ x ∈ f.atomvals, ¬ Dep f.eval x

theorem sound_ttSkip {b : Binv} {av : Option (List Int)} {f : Boolf} (h : ttSkip b av = .ok f) :
    Sound f ∧ FlagOk f ∧ f.isConstant = false ∧ f.atomvals ≠ [] := by
  unfold ttSkip at h
  simp only [bind, Except.bind] at h
  cases hc : ttCheck b av with
  | error e => rw [hc] at h; cases h
  | ok u =>
    cases u
    rw [hc] at h
    simp only at h
    cases ha : ttAtoms b av with
    | error e => rw [ha] at h; cases h
    | ok cB =>
      obtain ⟨c, B⟩ := cB
      obtain ⟨hB, hl⟩ := ttAtoms_spec hc ha
      rw [ha] at h
      simp only at h
      by_cases hne : B = []
      · subst hne; unfold pyMaxNat at h; cases h
      · obtain ⟨m, m1, m2, m3⟩ := pyMaxNat_ok hne
        rw [m1] at h
        simp only at h
        obtain ⟨g, g1, g2, g3⟩ := ttDeflated_none hl
        rw [g1] at h
        simp only [pure, Except.pure] at h
        cases h
        refine ⟨⟨hB, hl, rfl, fun n => ?_⟩, ?_, rfl, hne⟩
        · constructor
          · intro h x hx
            have := m3 x hx
            simp only at h
            omega
          · intro h
            exact h m m2
        · have hnd : B.Nodup := hB.imp (fun h => Nat.ne_of_lt h)
          have hgfun : g.eval = fun a => c.vector.getD (valB ((List.range B.length).map a)) false := funext g3
          unfold FlagOk
          simp only [decide_eq_true_eq]
          refine Iff.trans (b := ∃ k < B.length, k ∉ g.atomvals) (by rw [g2.val]; exact length_lt_iff g2.asc (g2.lt_of_range (e := fun l => c.vector.getD (valB l) false) g3)) ?_
          · constructor
            · rintro ⟨k, hk, hkg⟩
              refine ⟨B[k], List.getElem_mem _, fun hd => hkg ?_⟩
              rw [g2.mem_iff, hgfun]
              exact (dep_shift hnd hk).1 hd
            · rintro ⟨x, hx, hd⟩
              obtain ⟨k, hk, rfl⟩ := List.mem_iff_getElem.1 hx
              refine ⟨k, hk, fun hkg => hd ?_⟩
              rw [g2.mem_iff, hgfun] at hkg
              exact (dep_shift hnd hk).2 hkg

theorem Canon.flag {f : Boolf} (h : Canon f) : FlagOk f := by
  unfold FlagOk
  rw [h.infl]
  constructor
  · intro h; cases h
  · rintro ⟨x, hx, hd⟩
    exact absurd ((h.mem_iff x).1 hx) hd

/-- what holds for all objects -/
structure Good (f : Boolf) : Prop extends Sound f where
  flag : FlagOk f
  const : f.isConstant = true ↔ f.atomvals = []

theorem Canon.good {f : Boolf} (h : Canon f) : Good f := ⟨h.toSound, h.flag, by rw [h.const]; simp⟩

/-- an object without inessential atoms -/
theorem Good.canon {f : Boolf} (h : Good f) (hi : f.isInflated = false) : Canon f := by
  refine ⟨h.toSound, ?_, hi, ?_⟩
  · rw [Bool.eq_iff_iff, h.const, decide_eq_true_eq]
  · intro k hk hc
    have hd : Dep f.eval f.atomvals[k] := by
      by_contra hd
      have := h.flag.2 ⟨_, List.getElem_mem _, hd⟩
      rw [hi] at this; cases this
    obtain ⟨a, ha⟩ := hd
    apply ha
    unfold Boolf.eval
    have hmem : f.atomvals[k] ∉ f.atomvals.eraseIdx k := by
      rw [List.mem_iff_getElem?]
      rintro ⟨i, hi⟩
      have hnd := (List.nodup_iff_getElem?_ne_getElem?).1 h.nodup
      rw [List.getElem?_eraseIdx, ← List.getElem?_eq_getElem hk] at hi
      split at hi
      · exact hnd i k (by omega) hk hi
      · have hlt := getElem?_some_lt (hi.trans (List.getElem?_eq_getElem hk))
        exact hnd k (i + 1) (by omega) hlt hi.symm
    have e2 : ∀ b, (f.atomvals.eraseIdx k).map (upd a f.atomvals[k] b) = (f.atomvals.eraseIdx k).map a := by
      intro b
      apply List.map_congr_left
      intro y hy
      unfold upd
      rw [if_neg (by rintro rfl; exact hmem hy)]
    have e1 : ∀ b, upd a f.atomvals[k] b f.atomvals[k] = b := by intro b; unfold upd; rw [if_pos rfl]
    rw [valB_map_erase _ _ k hk, valB_map_erase _ (upd a f.atomvals[k] true) k hk, e1, e1, e2, e2]
    have hl : (f.atomvals.eraseIdx k).length = f.atomvals.length - 1 := List.length_eraseIdx_of_lt hk
    have hj : valB ((f.atomvals.eraseIdx k).map a) < 2 ^ (f.atomvals.length - 1) := by rw [← hl]; exact valB_map_lt _ _
    rw [← getD_half hj, ← getD_half hj, hc]

theorem good_newTT {tt : TT} {av : Option (List Int)} {ar : Option Int} {skip : Bool} {f : Boolf} (h : newTT tt av ar skip = .ok f) :
    Good f := by
  cases skip with
  | false => exact (canon_newTT h).good
  | true =>
    have key : ∀ tt' : TT, (ttBinv tt' ar >>= fun b => ttSkip b av) = .ok f → Good f := by
      intro tt' h
      cases hb : ttBinv tt' ar with
      | error e => rw [hb] at h; cases h
      | ok b =>
        rw [hb] at h
        obtain ⟨h1, h2, h3, h4⟩ := sound_ttSkip h
        exact ⟨h1, h2, by rw [h3]; simp [h4]⟩
    cases tt with
    | bool b =>
      unfold newTT at h
      simp only at h
      rw [if_pos (by simp)] at h
      cases h
    | list l => exact key (.list l) h
    | str s => exact key (.str s) h
    | binv b => exact key (.binv b) h
    | int n => exact key (.int n) h

/-- Objects that were returned by the constructor, with or without `skip_deflation`. -/
inductive Obj : Boolf → Prop
  | new (a : Args) (f : Boolf) (h : new a = .ok f) (he : ∀ g, Entry.boolf g ∈ a.entries → Obj g) : Obj f

theorem Reach.obj {f : Boolf} (h : Reach f) : Obj f := by
  induction h with
  | new a f h hs he ih => exact .new a f h ih

theorem Obj.good {f : Boolf} (h : Obj f) : Good f := by
  induction h with
  | new a f h _ ih =>
    unfold BF.new at h
    simp only at h
    split at h
    · split at h
      · cases h; exact (canon_unary _).good
      · cases h
    · split at h
      · exact good_newTT h
      · cases h
    · split at h
      · unfold newFullspots at h
        split at h
        · cases h
        · split at h
          · cases h; exact (canon_const _).good
          · simp only at h
            split at h
            · split at h
              · cases h; exact (canon_const _).good
              · cases h
            · simp only [bind, Except.bind] at h
              split at h
              · cases h
              · next b hb =>
                cases hs : a.skip with
                | true =>
                  rw [hs, if_pos rfl] at h
                  exact good_newTT h
                | false =>
                  rw [hs, if_neg (by simp)] at h
                  cases hd : deflate b (a.av.getD ((List.range (a.arity.getD 0).toNat).map Int.ofNat)) with
                  | error e => rw [hd] at h; cases h
                  | ok c => rw [hd] at h; exact good_newTT h
      · cases h
    · split at h
      · unfold newZhe at h
        simp only [bind, Except.bind] at h
        split at h
        · cases h
        · split at h
          · cases h
          · exact good_newTT h
      · cases h
    · split at h
      · unfold newWalsh at h
        simp only at h
        generalize (if List.length _ < 2 then (1 : Int) else _) = n at h
        split at h
        · exact good_newTT h
        · cases h
      · cases h
    · split at h
      · exact (sound_newMulti h (fun g hg => (ih g hg).toSound)).good
      · cases h
    · cases h

end Verif.BF
