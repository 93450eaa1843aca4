import Verif.Boolf.Model14
import Verif.Boolf.Props52
import Verif.Boolf.Props53

/-!
# Factions and families of a clan
-/

namespace Verif.BF
open Verif.Py Verif.BV Verif.P Verif.W Verif.SP
open Verif.A hiding Mat

/-! ## members of the clan of a root function -/

/-- every function of the first `n` atoms exists -/
theorem fun_exists (n : Nat) (e : (Nat → Bool) → Bool) (he : ∀ a b, (∀ x < n, a x = b x) → e a = e b) : ∃ g, Reach g ∧ ∀ a, g.eval a = e a := by
  obtain ⟨g, _, g2, g3⟩ := newTT_list (v := (List.range (2 ^ n)).map fun k : Nat => e k.testBit) (A := List.range n) List.pairwise_lt_range (by simp)
  refine ⟨g, g2.reach, fun a => ?_⟩
  have hlt : valB ((List.range n).map a) < 2 ^ n := by simpa using valB_map_lt (List.range n) a
  rw [g3, List.getD_eq_getElem?_getD, List.getElem?_map, List.getElem?_range hlt]
  simp only [Option.map_some, Option.getD_some]
  apply he
  intro x hx
  rw [testBit_valB_map, List.getElem?_range hx]
  rfl

theorem Negated.replaced {f g : Boolf} (hf : Reach f) (hg : Reach g) (h : Negated f g) : ∃ s, Replaced f g id s := by
  obtain ⟨m, hm⟩ := h
  refine ⟨m.testBit, Replaced.of_keys hf.canon.toSound hg.canon.toSound (fun _ _ _ _ h => h) fun key key' hk => ?_⟩
  rw [hm, getItem_eq hf.canon.toSound, getItem_eq hf.canon.toSound, xor_testBit]
  exact congrArg Except.ok (Boolf.eval_congr fun x hx => (hk x hx).symm)

theorem Replaced.negated {f g : Boolf} (hf : Reach f) (hg : Reach g) {s : Nat → Bool} (h : Replaced f g id s) : Negated f g := by
  refine ⟨valB ((List.range f.adicity).map s), fun key => ?_⟩
  rw [getItem_eq hg.canon.toSound, getItem_eq hf.canon.toSound, h.eval, xor_testBit]
  refine congrArg Except.ok (Boolf.eval_congr fun x hx => ?_)
  rw [testBit_valB_map, List.getElem?_range (hf.canon.toSound.adic_lt hx)]
  rfl

theorem Replaced.unique {f g g' : Boolf} {r : Nat → Nat} {s : Nat → Bool} (hg : Reach g) (hg' : Reach g') (h : Replaced f g r s) (h' : Replaced f g' r s) : g = g' :=
  hg.canon.ext hg'.canon fun a => by rw [h.eval, h'.eval]

theorem Replaced.exists {f : Boolf} {n : Nat} {r : Nat → Nat} (s : Nat → Bool) (hr : ∀ x ∈ f.atomvals, r x < n)
    (hi : ∀ x ∈ f.atomvals, ∀ y ∈ f.atomvals, r x = r y → x = y) : ∃ g, Reach g ∧ Replaced f g r s := by
  obtain ⟨g, g1, g2⟩ := fun_exists n (fun a => f.eval fun x => a (r x) ^^ s x) (fun a b hab => by
    apply Boolf.eval_congr
    intro x hx
    rw [hab _ (hr x hx)])
  exact ⟨g, g1, hi, g2⟩

/-- each faction meets each family -/
theorem faction_meets_family {n : Nat} {g h : Boolf} (hg : Reach g) (hh : Reach h) (hm : SignedRenamed n h g) : ∃ k, Reach k ∧ Negated h k ∧ Renamed n k g := by
  obtain ⟨r, s, hr, h1⟩ := hm.replaced hh hg
  obtain ⟨k, k1, k2⟩ := Replaced.exists (f := h) (n := h.adicity) (r := id) s (fun x hx => hh.canon.toSound.adic_lt hx) (fun _ _ _ _ h => h)
  refine ⟨k, k1, k2.negated hh k1, ?_⟩
  have hmem : ∀ x, x ∈ k.atomvals ↔ x ∈ h.atomvals := fun x => by
    rw [k2.mem hh.canon k1.canon]
    simp
  have : Replaced k g r fun _ => false := by
    refine ⟨fun x hx y hy => h1.inj x ((hmem x).1 hx) y ((hmem y).1 hy), fun a => ?_⟩
    rw [h1.eval, k2.eval]
    simp
  exact this.renamed k1 hg fun x hx => hr x ((hmem x).1 hx)

/-- The member of a clan that corresponds to a member of a faction and a family, when the atoms are replaced: it is in the same faction, and in the family of the
replaced function. -/
theorem splinter_map {n : Nat} {h k x : Boolf} {r : Nat → Nat} (hh : Reach h) (hk : Reach k) (hx : Reach x) (hr : ∀ y ∈ h.atomvals, r y < n)
    (h1 : Replaced h k r fun _ => false) (h2 : Negated h x) : ∃ y, Reach y ∧ Replaced x y r (fun _ => false) ∧ Renamed n x y ∧ Negated k y := by
  obtain ⟨s, h3⟩ := h2.replaced hh hx
  have hmem : ∀ y, y ∈ x.atomvals ↔ y ∈ h.atomvals := fun y => by
    rw [h3.mem hh.canon hx.canon]
    simp
  obtain ⟨y, y1, y2⟩ := Replaced.exists (f := x) (n := n) (r := r) (fun _ => false) (fun z hz => hr z ((hmem z).1 hz))
    (fun z hz z' hz' => h1.inj z ((hmem z).1 hz) z' ((hmem z').1 hz'))
  refine ⟨y, y1, y2, y2.renamed hx y1 fun z hz => hr z ((hmem z).1 hz), ?_⟩
  classical
  let r' : Nat → Nat := fun z => if h : ∃ x ∈ h.atomvals, r x = z then h.choose else 0
  have hr' : ∀ z ∈ h.atomvals, r' (r z) = z := by
    intro z hz
    have hex : ∃ x ∈ h.atomvals, r x = r z := ⟨z, hz, rfl⟩
    simp only [r', dif_pos hex]
    exact h1.inj _ hex.choose_spec.1 _ hz hex.choose_spec.2
  have h4 : Replaced k y id fun w => s (r' w) := by
    refine ⟨fun _ _ _ _ h => h, fun a => ?_⟩
    rw [y2.eval, h3.eval, h1.eval]
    apply Boolf.eval_congr
    intro z hz
    simp [hr' z hz]
  exact h4.negated hk y1

/-- The splinters of a faction have the same length in all families. -/
theorem splinter_length {n : Nat} {g h h' : Boolf} (hg : Reach g) (hh : Reach h) (hh' : Reach h') (hm : SignedRenamed n h' h) {L L' : List Boolf} (hL : L.Nodup)
    (hl : ∀ x, x ∈ L ↔ Reach x ∧ Renamed n g x ∧ Negated h x) (hl' : ∀ x, x ∈ L' ↔ Reach x ∧ Renamed n g x ∧ Negated h' x) (hgm : SignedRenamed n h h') : L.length ≤ L'.length := by
  classical
  obtain ⟨k, k1, k2, k3⟩ := faction_meets_family hh hh' hm
  obtain ⟨r, hr, h1⟩ := (k3.symm k1 hh).replaced hh k1
  have hkn : k.adicity ≤ n := by rw [k2.adicity hh' k1]; exact hgm.adicity hh hh'
  have hmap : ∀ x, x ∈ L → ∃ y, y ∈ L' ∧ Replaced x y r (fun _ => false) := by
    intro x hx
    obtain ⟨x1, x2, x3⟩ := (hl x).1 hx
    obtain ⟨y, y1, y2, y3, y4⟩ := splinter_map (n := n) hh k1 x1 (fun z hz => lt_of_lt_of_le (hr z hz) hkn) h1 x3
    exact ⟨y, (hl' y).2 ⟨y1, x2.trans hg x1 y1 y3, k2.trans y4⟩, y2⟩
  let φ : Boolf → Boolf := fun x => if h : ∃ y, y ∈ L' ∧ Replaced x y r (fun _ => false) then h.choose else x
  have hφ : ∀ x ∈ L, φ x ∈ L' ∧ Replaced x (φ x) r (fun _ => false) := by
    intro x hx
    simp only [φ, dif_pos (hmap x hx)]
    exact (hmap x hx).choose_spec
  rw [← List.length_map (as := L) φ]
  refine (List.subperm_of_subset (List.Nodup.map_on ?_ hL) fun y hy => ?_).length_le
  · intro x hx x' hx' he
    have e1 := (hφ x hx).2
    have e2 := (hφ x' hx').2
    rw [← he] at e2
    obtain ⟨x1, _, x3⟩ := (hl x).1 hx
    obtain ⟨x1', _, x3'⟩ := (hl x').1 hx'
    obtain ⟨s, h3⟩ := x3.replaced hh x1
    obtain ⟨s', h3'⟩ := x3'.replaced hh x1'
    have hmem : ∀ y, y ∈ x.atomvals ↔ y ∈ h.atomvals := fun y => by rw [h3.mem hh.canon x1.canon]; simp
    have hmem' : ∀ y, y ∈ x'.atomvals ↔ y ∈ h.atomvals := fun y => by rw [h3'.mem hh.canon x1'.canon]; simp
    refine x1.canon.ext x1'.canon fun a => ?_
    let r' : Nat → Nat := fun z => if h : ∃ x ∈ h.atomvals, r x = z then h.choose else 0
    have hr' : ∀ z ∈ h.atomvals, r' (r z) = z := by
      intro z hz
      have hex : ∃ x ∈ h.atomvals, r x = r z := ⟨z, hz, rfl⟩
      simp only [r', dif_pos hex]
      exact h1.inj _ hex.choose_spec.1 _ hz hex.choose_spec.2
    have e3 := e1.eval fun w => a (r' w)
    rw [e2.eval] at e3
    rw [show x.eval a = x.eval (fun z => a (r' (r z)) ^^ false) from Boolf.eval_congr fun z hz => by rw [hr' z ((hmem z).1 hz), Bool.xor_false],
      show x'.eval a = x'.eval (fun z => a (r' (r z)) ^^ false) from Boolf.eval_congr fun z hz => by rw [hr' z ((hmem' z).1 hz), Bool.xor_false]]
    exact e3.symm
  · obtain ⟨x, hx, rfl⟩ := List.mem_map.1 hy
    exact (hφ x hx).1

/-! ## sorted lists of functions -/

theorem insertBoolf_spec (x : Boolf) (l : List Boolf) (hx : Reach x) (hl : ∀ y ∈ l, Reach y) (hs : l.Pairwise fun a b => b.lt a = .ok false) :
    ∃ l', insertBoolf x l = .ok l' ∧ l'.Perm (x :: l) ∧ l'.Pairwise fun a b => b.lt a = .ok false := by
  induction l with
  | nil => exact ⟨[x], rfl, List.Perm.refl _, by simp⟩
  | cons y ys ih =>
    obtain ⟨l', h1, h2, h3⟩ := ih (fun z hz => hl z (List.mem_cons_of_mem _ hz)) hs.of_cons
    have hy := hl y List.mem_cons_self
    obtain ⟨⟨b, hb⟩, t1, t2, t3, _⟩ := C104_lt y x x hy hx hx
    unfold insertBoolf
    rw [hb]
    simp only [bind, Except.bind, pure, Except.pure]
    cases b with
    | true =>
      rw [if_pos rfl, h1]
      refine ⟨_, rfl, (List.Perm.cons y h2).trans (List.Perm.swap x y ys), List.pairwise_cons.2 ⟨fun z hz => ?_, h3⟩⟩
      rcases List.mem_cons.1 (h2.mem_iff.1 hz) with rfl | hz
      · exact (t2 hb).2
      · exact (List.pairwise_cons.1 hs).1 z hz
    | false =>
      rw [if_neg (by decide)]
      refine ⟨_, rfl, List.Perm.refl _, List.pairwise_cons.2 ⟨fun z hz => ?_, hs⟩⟩
      rcases List.mem_cons.1 hz with rfl | hz
      · exact hb
      · have hzr := hl z (List.mem_cons_of_mem _ hz)
        have hzy := (List.pairwise_cons.1 hs).1 z hz
        obtain ⟨⟨c, hc⟩, _⟩ := C104_lt z x x hzr hx hx
        cases c with
        | false => exact hc
        | true =>
          obtain ⟨_, u1, u2, u3, u4⟩ := C104_lt z y x hzr hy hx
          obtain ⟨_, w1, w2, w3, w4⟩ := C104_lt y z x hy hzr hx
          rcases u1 with h | h | h
          · rw [hzy] at h; cases h
          · obtain ⟨k1, k2⟩ := (Boolf.eq_iff z y).1 h
            have : z = y := hzr.canon.ext hy.canon fun a => by unfold Boolf.eval; rw [k1, k2]
            rw [this, hb] at hc
            cases hc
          · have := w4 h hc
            rw [hb] at this
            cases this

theorem sortBoolfs_spec (l : List Boolf) (hl : ∀ y ∈ l, Reach y) :
    ∃ l', sortBoolfs l = .ok l' ∧ l'.Perm l ∧ l'.Pairwise fun a b => b.lt a = .ok false := by
  induction l with
  | nil => exact ⟨[], rfl, List.Perm.refl _, by simp⟩
  | cons x xs ih =>
    obtain ⟨l', h1, h2, h3⟩ := ih fun z hz => hl z (List.mem_cons_of_mem _ hz)
    obtain ⟨l'', k1, k2, k3⟩ := insertBoolf_spec x l' (hl x List.mem_cons_self) (fun y hy => hl y (List.mem_cons_of_mem _ (h2.mem_iff.1 hy))) h3
    refine ⟨l'', ?_, k2.trans (List.Perm.cons x h2), k3⟩
    unfold sortBoolfs
    rw [h1]
    exact k1

/-- sorted lists with the same members are equal -/
theorem sorted_boolfs_unique {l l' : List Boolf} (hl : ∀ y ∈ l, Reach y) (hn : l.Nodup) (hn' : l'.Nodup) (hm : ∀ x, x ∈ l ↔ x ∈ l')
    (hs : l.Pairwise fun a b => b.lt a = .ok false) (hs' : l'.Pairwise fun a b => b.lt a = .ok false) : l = l' := by
  refine List.Perm.eq_of_pairwise (fun a b ha hb h1 h2 => ?_) hs hs' ((List.perm_ext_iff_of_nodup hn hn').2 hm)
  have hra := hl a ha
  have hrb := hl b ((hm b).2 hb)
  obtain ⟨_, t1, _⟩ := C104_lt a b b hra hrb hrb
  rcases t1 with h | h | h
  · rw [h2] at h; cases h
  · obtain ⟨k1, k2⟩ := (Boolf.eq_iff a b).1 h
    exact hra.canon.ext hrb.canon fun c => by unfold Boolf.eval; rw [k1, k2]
  · rw [h1] at h; cases h

theorem eq_of_eq {f g : Boolf} (hf : Reach f) (hg : Reach g) : f.eq g = true ↔ f = g := by
  rw [Boolf.eq_iff]
  constructor
  · rintro ⟨h1, h2⟩
    exact hf.canon.ext hg.canon fun a => by unfold Boolf.eval; rw [h1, h2]
  · rintro rfl
    exact ⟨rfl, rfl⟩

theorem tupleEq_iff (l l' : List Boolf) (hl : ∀ y ∈ l, Reach y) (hl' : ∀ y ∈ l', Reach y) : tupleEq l l' = true ↔ l = l' := by
  induction l generalizing l' with
  | nil => cases l' <;> simp [tupleEq]
  | cons x xs ih =>
    cases l' with
    | nil => simp [tupleEq]
    | cons y ys =>
      rw [tupleEq, Bool.and_eq_true, eq_of_eq (hl x List.mem_cons_self) (hl' y List.mem_cons_self),
        ih ys (fun z hz => hl z (List.mem_cons_of_mem _ hz)) (fun z hz => hl' z (List.mem_cons_of_mem _ hz)), List.cons.injEq]

theorem setOfBoolfs_nodup (l : List Boolf) (hl : ∀ y ∈ l, Reach y) (hn : l.Nodup) : setOfBoolfs l = l := by
  have key : ∀ (l s : List Boolf), (∀ y ∈ s ++ l, Reach y) → (s ++ l).Nodup → l.foldl (fun s x => if s.any (·.eq x) then s else s ++ [x]) s = s ++ l := by
    intro l
    induction l with
    | nil => intro s _ _; simp
    | cons x xs ih =>
      intro s hr hn
      rw [List.foldl_cons, if_neg]
      · rw [ih (s ++ [x]) (by simpa using hr) (by simpa using hn)]
        simp
      · rw [List.any_eq_true]
        rintro ⟨y, hy, he⟩
        rw [eq_of_eq (hr y (by simp [hy])) (hr x (by simp))] at he
        subst he
        exact List.disjoint_of_nodup_append hn hy List.mem_cons_self
  exact key l [] hl hn

end Verif.BF
