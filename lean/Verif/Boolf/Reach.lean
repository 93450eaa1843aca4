import Verif.Boolf.Twin

/-! # Objects returned by the constructor -/

namespace Verif.BF
open Verif.Py Verif.BV Verif.P Verif.W
open Verif.A hiding Mat

theorem canon_unary (z : Int) : Canon (setUnary z) := by
  unfold setUnary
  split
  · refine ⟨⟨List.pairwise_singleton _ _, rfl, rfl, fun n => ?_⟩, rfl, rfl, ?_⟩
    · simp only [List.mem_singleton, forall_eq]; omega
    · intro k hk
      obtain rfl : k = 0 := by simpa using hk
      show Ess [true, false] 0 0
      unfold Ess; decide
  · refine ⟨⟨List.pairwise_singleton _ _, rfl, rfl, fun n => ?_⟩, rfl, rfl, ?_⟩
    · simp only [List.mem_singleton, forall_eq]; omega
    · intro k hk
      obtain rfl : k = 0 := by simpa using hk
      show Ess [false, true] 0 0
      unfold Ess; decide

theorem eval_unary (z : Int) (a : Nat → Bool) : (setUnary z).eval a = (a (logicAbs z).toNat ^^ decide (z < 0)) := by
  unfold setUnary logicAbs Boolf.eval
  by_cases h : z < 0
  · rw [if_pos h, if_pos h, decide_eq_true h]
    simp only [List.map_cons, List.map_nil, valB]
    cases a (inv z).toNat <;> rfl
  · rw [if_neg h, if_neg h, decide_eq_false h]
    simp only [List.map_cons, List.map_nil, valB]
    cases a z.toNat <;> rfl

theorem canon_ttDeflated {b : Binv} {av : Option (List Int)} {f : Boolf} (h : ttDeflated b av = .ok f) : Canon f := by
  have h' := h
  unfold ttDeflated at h'
  simp only [bind, Except.bind] at h'
  cases hc : ttCheck b av with
  | error e => rw [hc] at h'; cases h'
  | ok u =>
    rw [hc] at h'
    simp only at h'
    by_cases hw : b.weight = 0 ∨ b.weight = b.length
    · rw [if_pos hw] at h'
      cases h'; exact canon_const _
    · rw [if_neg hw] at h'
      cases av with
      | none =>
        unfold ttAtoms logInt at h'
        by_cases hp : isPowerOfTwo b.length = true
        · obtain ⟨n, hn⟩ := isPowerOfTwo_iff.1 hp
          obtain ⟨g, g1, g2, _⟩ := ttDeflated_none hn
          rw [h] at g1; cases g1; exact g2
        · rw [if_neg hp] at h'; cases h'
      | some A =>
        unfold ttCheck at hc
        simp only at hc
        split at hc
        · next hd =>
          split at hc
          · next hl =>
            have hA := dedup_length_iff.1 hd
            unfold ttAtoms at h'
            simp only at h'
            have hne : A ≠ [] := by
              rintro rfl
              unfold pyMin at h'
              cases h'
            obtain ⟨m, m1, m2, m3⟩ := pyMin_ok hne
            rw [m1] at h'
            simp only at h'
            by_cases hm : m ≥ 0
            · have h0 : ∀ x ∈ A, 0 ≤ x := fun x hx => le_trans hm (m3 x hx)
              obtain ⟨L, hL, _⟩ := readOrder_exists (nodup_toNat hA h0)
              obtain ⟨g, g1, g2, _⟩ := ttDeflated_some hA h0 hl hL
              rw [h] at g1; cases g1; exact g2
            · rw [if_neg hm] at h'; cases h'
          · cases hc
        · cases hc

theorem canon_newTT {tt : TT} {av : Option (List Int)} {ar : Option Int} {f : Boolf} (h : newTT tt av ar false = .ok f) : Canon f := by
  have key : ∀ tt' : TT, (ttBinv tt' ar >>= fun b => ttDeflated b av) = .ok f → Canon f := by
    intro tt' h
    cases hb : ttBinv tt' ar with
    | error e => rw [hb] at h; cases h
    | ok b => rw [hb] at h; exact canon_ttDeflated h
  cases tt with
  | bool b =>
    unfold newTT at h
    simp only at h
    split at h
    · cases h
    · cases h; exact canon_const b
  | list l => exact key (.list l) h
  | str s => exact key (.str s) h
  | binv b => exact key (.binv b) h
  | int n => exact key (.int n) h

theorem canon_newFullspots {fs : List Int} {av : Option (List Int)} {ar : Option Int} {f : Boolf}
    (h : newFullspots fs av ar false = .ok f) : Canon f := by
  unfold newFullspots at h
  split at h
  · cases h
  · split at h
    · cases h; exact canon_const _
    · simp only at h
      split at h
      · split at h
        · cases h; exact canon_const _
        · cases h
      · simp only [bind, Except.bind] at h
        split at h
        · cases h
        · next b hb =>
          rw [if_neg (by simp)] at h
          cases hd : deflate b (av.getD ((List.range (ar.getD 0).toNat).map Int.ofNat)) with
          | error e => rw [hd] at h; cases h
          | ok c => rw [hd] at h; exact canon_newTT h

/-- the value of an entry under an assignment -/
def Entry.value (a : Nat → Bool) : Entry → Bool
  | .int n => a (logicAbs n).toNat ^^ decide (n < 0)
  | .boolf g => g.eval a

theorem multiLoop_spec {ext : Boolf → Boolf → Except Err Boolf} {op : Bool → Bool → Bool}
    (hext : ∀ f g, Sound f → Sound g → ∃ h, ext f g = .ok h ∧ Canon h ∧ ∀ a, h.eval a = op (f.eval a) (g.eval a))
    (l : List Entry) (hl : ∀ g, Entry.boolf g ∈ l → Sound g) (s : Boolf) (hs : Canon s) :
    ∃ f, multiLoop ext s l = .ok f ∧ Canon f ∧
      ∀ a, f.eval a = l.foldl (fun b e => op b (e.value a)) (s.eval a) := by
  induction l generalizing s with
  | nil => exact ⟨s, rfl, hs, fun _ => rfl⟩
  | cons e l ih =>
    have : ∃ h, ext s e.toBoolf = .ok h ∧ Canon h ∧ ∀ a, h.eval a = op (s.eval a) (e.value a) := by
      cases e with
      | int n =>
        obtain ⟨h, h1, h2, h3⟩ := hext s (setUnary n) hs.toSound (canon_unary n).toSound
        exact ⟨h, h1, h2, fun a => by rw [h3, eval_unary]; rfl⟩
      | boolf g => exact hext s g hs.toSound (hl g (List.mem_cons_self))
    obtain ⟨h, h1, h2, h3⟩ := this
    obtain ⟨f, f1, f2, f3⟩ := ih (fun g hg => hl g (List.mem_cons_of_mem _ hg)) h h2
    refine ⟨f, ?_, f2, fun a => ?_⟩
    · unfold multiLoop at *
      rw [List.foldlM_cons, h1]
      exact f1
    · rw [f3, List.foldl_cons, h3]

theorem newTT_str1 : newTT (.str ['1']) = .ok (setConstant true) := by
  unfold newTT ttBinv
  rfl

theorem newTT_str0 : newTT (.str ['0']) = .ok (setConstant false) := by
  unfold newTT ttBinv
  rfl

theorem and_spec {f g : Boolf} (hf : Sound f) (hg : Sound g) : ∃ h, f.and g = .ok h ∧ Canon h ∧ ∀ a, h.eval a = (f.eval a && g.eval a) :=
  bitwise_spec hf hg _
theorem or_spec {f g : Boolf} (hf : Sound f) (hg : Sound g) : ∃ h, f.or g = .ok h ∧ Canon h ∧ ∀ a, h.eval a = (f.eval a || g.eval a) :=
  bitwise_spec hf hg _
theorem xor_spec {f g : Boolf} (hf : Sound f) (hg : Sound g) : ∃ h, f.xor g = .ok h ∧ Canon h ∧ ∀ a, h.eval a = (f.eval a ^^ g.eval a) :=
  bitwise_spec hf hg _

theorem xand_spec {f g : Boolf} (hf : Sound f) (hg : Sound g) :
    ∃ h, f.xand g = .ok h ∧ Canon h ∧ ∀ a, h.eval a = (f.eval a ^^ !g.eval a) := by
  obtain ⟨c, c1, c2, c3⟩ := complement_spec hg
  obtain ⟨h, h1, h2, h3⟩ := xor_spec hf c2.toSound
  refine ⟨h, ?_, h2, fun a => by rw [h3, c3]⟩
  unfold Boolf.xand
  rw [c1]; exact h1

/-- the entries of the lists given to the constructor -/
def Args.entries (a : Args) : List Entry := a.muA.getD [] ++ a.muO.getD [] ++ a.muXo.getD [] ++ a.muXa.getD []

theorem sound_newMulti {a b c d : Option (List Entry)} {f : Boolf} (h : newMulti a b c d = .ok f)
    (he : ∀ g, Entry.boolf g ∈ a.getD [] ++ b.getD [] ++ c.getD [] ++ d.getD [] → Sound g) : Canon f := by
  unfold newMulti at h
  simp only [newTT_str0, newTT_str1, bind, Except.bind] at h
  split at h
  · obtain ⟨g, g1, g2, _⟩ := multiLoop_spec (fun f g hf hg => and_spec hf hg) _ (fun g hg => he g (by simpa using hg)) _ (canon_const true)
    rw [g1] at h; cases h; exact g2
  · obtain ⟨g, g1, g2, _⟩ := multiLoop_spec (fun f g hf hg => or_spec hf hg) _ (fun g hg => he g (by simpa using hg)) _ (canon_const false)
    rw [g1] at h; cases h; exact g2
  · obtain ⟨g, g1, g2, _⟩ := multiLoop_spec (fun f g hf hg => xor_spec hf hg) _ (fun g hg => he g (by simpa using hg)) _ (canon_const false)
    rw [g1] at h; cases h; exact g2
  · obtain ⟨g, g1, g2, _⟩ := multiLoop_spec (ext := Boolf.xand) (op := fun x y => x ^^ !y) (fun f g hf hg => xand_spec hf hg) _ (fun g hg => he g (by simpa using hg)) _ (canon_const true)
    rw [g1] at h; cases h; exact g2
  · cases h

/-- Objects that were returned by the constructor without `skip_deflation`; the entries of `multi_and` etc. are such objects. -/
inductive Reach : Boolf → Prop
  | new (a : Args) (f : Boolf) (h : new a = .ok f) (hs : a.skip = false) (he : ∀ g, Entry.boolf g ∈ a.entries → Reach g) : Reach f

theorem Reach.canon {f : Boolf} (h : Reach f) : Canon f := by
  induction h with
  | new a f h hs _ ih =>
    unfold BF.new at h
    rw [hs] at h
    simp only at h
    split at h
    · split at h
      · cases h; exact canon_unary _
      · cases h
    · split at h
      · exact canon_newTT h
      · cases h
    · split at h
      · exact canon_newFullspots h
      · cases h
    · split at h
      · unfold newZhe at h
        simp only [bind, Except.bind] at h
        split at h
        · cases h
        · split at h
          · cases h
          · exact canon_newTT h
      · cases h
    · split at h
      · unfold newWalsh at h
        simp only at h
        generalize (if List.length _ < 2 then (1 : Int) else _) = n at h
        split at h
        · exact canon_newTT h
        · cases h
      · cases h
    · split at h
      · exact sound_newMulti h (fun g hg => (ih g hg).toSound)
      · cases h
    · cases h

theorem reach_newTT {tt : TT} {av : Option (List Int)} {ar : Option Int} {f : Boolf} (h : newTT tt av ar = .ok f) : Reach f :=
  .new { tt := some tt, av := av, arity := ar } f h rfl (by simp [Args.entries])

end Verif.BF
