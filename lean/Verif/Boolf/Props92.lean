import Verif.Boolf.Model33
import Verif.Boolf.Props10
import Verif.SigPerm.FromSchoute

/-!
# C162: `val` with arguments of any kind
-/

namespace Verif.BF
open Verif.Py Verif.BV Verif.P Verif.W Verif.SP
open Verif.A hiding Mat

/-! ## Specification -/

/-- `a` is a list or a Binv with the entry `c` at place `i`. -/
def Place (i : Nat) (a c : VArg) : Prop :=
  (∃ l, a = .seq l ∧ l[i]? = some c) ∨ ∃ (b : Binv) (x : Bool), a = .bv b ∧ b.vector[i]? = some x ∧ c = .num x.toNat

/-- `a` is a list or a Binv of length `n`. -/
def Sized (a : VArg) (n : Nat) : Prop := (∃ l, a = .seq l ∧ l.length = n) ∨ ∃ b : Binv, a = .bv b ∧ b.vector.length = n

/-- There is one bit for each of the atoms, at least one, and `b` is the value of the function for all keys with these bits. -/
def ValueAt (f : Boolf) (bits : List Bool) (b : Bool) : Prop :=
  bits.length = f.valency ∧ bits ≠ [] ∧ ∀ key : Nat, (∀ k x : Nat, f.atomvals[k]? = some x → bits[k]? = some (key.testBit x)) → f.getItem key = .ok b

/-- A bit as an argument. -/
def bitArg (b : Bool) : VArg := .num b.toNat

/-! ## Single values -/

theorem bits_key {f : Boolf} (h : Sound f) (bits : List Bool) (hl : bits.length = f.valency) :
    ∃ key : Nat, ∀ k x : Nat, f.atomvals[k]? = some x → bits[k]? = some (key.testBit x) := by
  obtain ⟨key, _, hk⟩ := exists_key h fun x => bits.getD (f.atomvals.idxOf x) false
  refine ⟨key, fun k x hx => ?_⟩
  obtain ⟨hlt, hx2⟩ := List.getElem?_eq_some_iff.1 hx
  rw [hk x (List.mem_of_getElem? hx)]
  have e : f.atomvals.idxOf x = k := by rw [← hx2]; exact h.nodup.idxOf_getElem k hlt
  have hkb : k < bits.length := by rw [hl, h.val]; exact hlt
  simp only [e]
  rw [List.getD_eq_getElem?_getD, List.getElem?_eq_getElem hkb]
  rfl

theorem valueAt_iff {f : Boolf} (hf : Obj f) (bits : List Bool) (b : Bool) :
    ValueAt f bits b ↔ bits.length = f.valency ∧ bits ≠ [] ∧ f.val (bits.map fun b => (b.toNat : Int)) = .ok b := by
  constructor
  · rintro ⟨h1, h2, h3⟩
    obtain ⟨key, hk⟩ := bits_key hf.good.toSound bits h1
    exact ⟨h1, h2, by rw [(C69_val f hf).1 bits key h1 h2 hk]; exact h3 key hk⟩
  · rintro ⟨h1, h2, h3⟩
    exact ⟨h1, h2, fun key hk => by rw [← (C69_val f hf).1 bits key h1 h2 hk]; exact h3⟩

theorem issubset01_bits (bits : List Bool) : issubset01 (bits.map bitArg) = .ok true := by
  unfold issubset01
  rw [if_neg]
  · congr 1
    rw [List.all_eq_true]
    intro a ha
    obtain ⟨b, _, rfl⟩ := List.mem_map.1 ha
    cases b <;> rfl
  · rw [List.any_eq_true]
    rintro ⟨a, ha, hc⟩
    obtain ⟨b, _, rfl⟩ := List.mem_map.1 ha
    cases hc

theorem bits_of_issubset01 : ∀ (args : List VArg), issubset01 args = .ok true → ∃ bits : List Bool, args = bits.map bitArg
  | [], _ => ⟨[], rfl⟩
  | a :: args, h => by
    unfold issubset01 at h
    split at h
    · cases h
    · rename_i hn
      simp only [Except.ok.injEq, List.all_cons, Bool.and_eq_true] at h
      obtain ⟨bits, hb⟩ := bits_of_issubset01 args (by
        unfold issubset01
        rw [if_neg]
        · exact congrArg Except.ok h.2
        · intro hc
          apply hn
          rw [List.any_cons, hc, Bool.or_true])
      cases a with
      | num n =>
        have := of_decide_eq_true h.1
        rcases this with rfl | rfl
        · exact ⟨false :: bits, by rw [hb]; rfl⟩
        · exact ⟨true :: bits, by rw [hb]; rfl⟩
      | seq l => cases h.1
      | bv b => cases h.1
      | other => cases h.1

theorem valSingle_bits {f : Boolf} (hf : Obj f) (bits : List Bool) (hl : bits.length = f.valency) (hne : bits ≠ []) :
    f.valSingle (bits.map bitArg) = (f.val (bits.map fun b => (b.toNat : Int))).map VRes.bit := by
  have e : (bits.map bitArg).map VArg.int = bits.map fun b => (b.toNat : Int) := by
    rw [List.map_map]; rfl
  unfold Boolf.valSingle
  rw [issubset01_bits, e, val_spec hf.good.toSound hl (by rw [← hl]; simpa using hne), mk_list]
  simp only [bind, Except.bind, if_true]
  have hlt : valB bits < f.root.length := by
    unfold Binv.length
    rw [hf.good.toSound.len, ← hf.good.toSound.val, ← hl]
    exact valB_lt _
  rw [intval_eq, getItem_ok hlt, List.getD_eq_getElem?_getD, List.getElem?_eq_getElem hlt]; rfl

/-- `f.valSingle` never returns a Binv, and a value only for bits. -/
theorem valSingle_ok {f : Boolf} {args : List VArg} {v : VRes} (h : f.valSingle args = .ok v) : ∃ (bits : List Bool) (b : Bool), args = bits.map bitArg ∧ v = .bit b := by
  unfold Boolf.valSingle at h
  cases hs : issubset01 args with
  | error e => rw [hs] at h; cases h
  | ok t =>
    rw [hs] at h
    cases t with
    | false => cases h
    | true =>
      obtain ⟨bits, hb⟩ := bits_of_issubset01 args hs
      simp only [bind, Except.bind, if_true] at h
      split at h
      · cases h
      · simp only [pure, Except.pure] at h
        split at h
        · cases h
        · exact ⟨bits, _, hb, (Except.ok.inj h).symm⟩

/-! ## Columns -/

theorem item_iff (a : VArg) (i : Nat) (c : VArg) : a.item i = .ok c ↔ Place i a c := by
  unfold VArg.item Place
  cases a with
  | num n => simp
  | other => simp
  | seq l => cases h : l[i]? <;> simp [h]
  | bv b =>
    cases h : b.vector[i]? with
    | none => simp [h]
    | some x =>
      simp only [h, Except.ok.injEq, reduceCtorEq, false_and, exists_false, VArg.bv.injEq, false_or]
      constructor
      · rintro rfl; exact ⟨b, x, rfl, h, rfl⟩
      · rintro ⟨b', y, rfl, hy, rfl⟩
        rw [h] at hy
        cases hy; rfl

theorem column_iff (args : List VArg) (i : Nat) (c : List VArg) : args.mapM (·.item i) = .ok c ↔ List.Forall₂ (Place i) args c := by
  rw [SG.mapM_ok_iff, List.forall₂_iff_get]
  constructor
  · rintro ⟨h1, h2⟩
    exact ⟨h1, fun k hk hk' => (item_iff _ _ _).1 (h2 k _ _ (List.getElem?_eq_getElem hk) (List.getElem?_eq_getElem hk'))⟩
  · rintro ⟨h1, h2⟩
    refine ⟨h1, fun k a b ha hb => ?_⟩
    obtain ⟨hk, rfl⟩ := List.getElem?_eq_some_iff.1 ha
    obtain ⟨hk', rfl⟩ := List.getElem?_eq_some_iff.1 hb
    exact (item_iff _ _ _).2 (h2 k hk hk')

/-- The value of `val` for the entries at place `i`. -/
def colVal (f : Boolf) (args : List VArg) (i : Nat) : Except Err VRes := do
  let c ← args.mapM (·.item i)
  f.valAny c

theorem colVal_cons (f : Boolf) (a c : VArg) (rest : List VArg) (i : Nat) (h : a.item i = .ok c) :
    colVal f (a :: rest) i = do { let cs ← rest.mapM (·.item i); f.valArgs c cs } := by
  unfold colVal
  rw [List.mapM_cons, h]
  simp only [bind, Except.bind, pure, Except.pure]
  cases rest.mapM (·.item i) <;> rfl

theorem valColumns_eq (f : Boolf) (l0 rest : List VArg) : ∀ (l : List VArg) (i : Nat), (∀ j, l[j]? = l0[i + j]?) →
    f.valColumns l i rest = (List.range' i l.length).mapM (colVal f (.seq l0 :: rest))
  | [], i, _ => by rw [Boolf.valColumns]; rfl
  | a :: l, i, h => by
    rw [Boolf.valColumns, List.length_cons, List.range'_succ, List.mapM_cons,
      colVal_cons f _ a rest i (by unfold VArg.item; simp only; rw [← Nat.add_zero i, ← h 0]; rfl),
      valColumns_eq f l0 rest l (i + 1) (fun j => by have := h (j + 1); rw [List.getElem?_cons_succ] at this; rw [this]; congr 1; omega)]
    simp only [bind, Except.bind, pure, Except.pure]
    cases rest.mapM (·.item i) <;> rfl

theorem zipIdx_mapM {α β : Type} {F : α × Nat → Except Err β} {G : Nat → Except Err β} : ∀ (l : List α) (i : Nat), (∀ j x, l[j]? = some x → F (x, i + j) = G (i + j)) →
    (l.zipIdx i).mapM F = (List.range' i l.length).mapM G
  | [], _, _ => rfl
  | a :: l, i, h => by
    rw [List.zipIdx_cons, List.length_cons, List.range'_succ, List.mapM_cons, List.mapM_cons, show F (a, i) = G i from h 0 a rfl,
      zipIdx_mapM l (i + 1) (fun j x hx => by have := h (j + 1) x hx; rwa [show i + (j + 1) = i + 1 + j by omega] at this)]

theorem valAny_sized (f : Boolf) (a : VArg) (rest : List VArg) (L : Nat) (ha : Sized a L) (hl : rest.length + 1 = f.valency) :
    f.valAny (a :: rest) = (List.range L).mapM (colVal f (a :: rest)) >>= binvOfVals := by
  unfold Boolf.valAny
  rcases ha with ⟨l, rfl, rfl⟩ | ⟨b, rfl, rfl⟩
  · simp only
    rw [Boolf.valArgs, if_pos hl, valColumns_eq f l rest l 0 (fun j => by rw [Nat.zero_add]), List.range_eq_range']
  · simp only
    rw [Boolf.valArgs, if_pos hl, List.range_eq_range', zipIdx_mapM (G := colVal f (.bv b :: rest))]
    intro j x hx
    rw [Nat.zero_add, colVal_cons f _ (.num x.toNat) rest j (by unfold VArg.item; simp only; rw [hx])]
    simp only [bind, Except.bind]
    cases hc : rest.mapM (·.item j) with
    | error e => rfl
    | ok cs =>
      have hlen : cs.length = rest.length := ((SG.mapM_ok_iff _ _).1 hc).1.symm
      simp only
      rw [Boolf.valArgs, if_pos (by rw [hlen]; exact hl), if_pos (by cases x <;> simp)]

theorem mapM_first_error {α β : Type} {F : α → Except Err β} {e : Err} : ∀ (l1 : List α) (x : α) (l2 : List α), (∀ a ∈ l1, ∃ v, F a = .ok v) → F x = .error e →
    (l1 ++ x :: l2).mapM F = .error e
  | [], x, l2, _, hx => by rw [List.nil_append, List.mapM_cons, hx]; rfl
  | a :: l1, x, l2, h, hx => by
    obtain ⟨v, hv⟩ := h a (by simp)
    rw [List.cons_append, List.mapM_cons, hv, mapM_first_error l1 x l2 (fun b hb => h b (by simp [hb])) hx]
    rfl

theorem range_split {p L : Nat} (h : p < L) : List.range L = List.range p ++ p :: List.range' (p + 1) (L - p - 1) := by
  rw [List.range_eq_range', List.range_eq_range', show L = p + ((L - p - 1) + 1) by omega, ← List.range'_append_1 (s := 0) (m := p), Nat.zero_add, List.range'_succ]
  congr 3
  omega

theorem binvOfVals_bits (bits : List Bool) : binvOfVals (bits.map VRes.bit) = .ok (.binv ⟨bits⟩) := by
  unfold binvOfVals
  rw [mapM_except_map VRes.toBit VRes.bit id bits (fun _ _ => rfl)]
  simp only [bind, Except.bind, List.map_id]
  rw [ofBools_eq]
  rfl

theorem binvOfVals_binv (l : List VRes) (h : ∃ b, VRes.binv b ∈ l) : binvOfVals l = .error .typeError := by
  unfold binvOfVals
  rw [P.mapM_error (e := .typeError)]
  · rfl
  · intro v _
    cases v with
    | bit b => exact .inl ⟨b, rfl⟩
    | binv b => exact .inr rfl
  · obtain ⟨b, hb⟩ := h
    exact ⟨_, hb, rfl⟩

theorem binvOfVals_ok {l : List VRes} {v : VRes} (h : binvOfVals l = .ok v) : ∃ bits : List Bool, l = bits.map VRes.bit ∧ v = .binv ⟨bits⟩ := by
  by_cases hb : ∃ b, VRes.binv b ∈ l
  · rw [binvOfVals_binv l hb] at h; cases h
  · have hl : l = (l.map fun | .bit b => b | .binv _ => false).map VRes.bit := by
      rw [List.map_map]
      conv_lhs => rw [← List.map_id l]
      apply List.map_congr_left
      intro v hv
      cases v with
      | bit b => rfl
      | binv b => exact absurd ⟨b, hv⟩ hb
    rw [hl, binvOfVals_bits] at h
    exact ⟨_, hl, (Except.ok.inj h).symm⟩

/-! ## C162 -/

/-- **C162.** With integers: one bit for each atom gives the value for the keys with these bits; anything else raises. -/
theorem C162_single (f : Boolf) (hf : Obj f) (args : List VArg) (b : Bool) :
    f.valAny args = .ok (.bit b) ↔ ∃ bits : List Bool, args = bits.map bitArg ∧ ValueAt f bits b := by
  constructor
  · intro h
    cases args with
    | nil =>
      rw [Boolf.valAny] at h
      split at h <;> cases h
    | cons a rest =>
      by_cases hl : rest.length + 1 = f.valency
      swap
      · unfold Boolf.valAny at h
        cases a <;> · simp only at h; rw [Boolf.valArgs, if_neg hl] at h; cases h
      have hseq : ∀ L, ¬ Sized a L := by
        intro L hs
        rw [valAny_sized f a rest L hs hl] at h
        cases hm : (List.range L).mapM (colVal f (a :: rest)) with
        | error e => rw [hm] at h; cases h
        | ok vs =>
          rw [hm] at h
          obtain ⟨_, _, h2⟩ := binvOfVals_ok h
          cases h2
      cases a with
      | seq l => exact absurd (.inl ⟨l, rfl, rfl⟩) (hseq l.length)
      | bv c => exact absurd (.inr ⟨c, rfl, rfl⟩) (hseq c.vector.length)
      | other => unfold Boolf.valAny at h; simp only at h; rw [Boolf.valArgs, if_pos hl] at h; cases h
      | num n =>
        unfold Boolf.valAny at h
        simp only at h
        rw [Boolf.valArgs, if_pos hl] at h
        split at h
        · obtain ⟨bits, _, hb, _⟩ := valSingle_ok h
          have hbl : bits.length = f.valency := by rw [← hl, ← List.length_cons (a := VArg.num n), hb, List.length_map]
          have hne : bits ≠ [] := by rintro rfl; cases hb
          refine ⟨bits, hb, (valueAt_iff hf bits b).2 ⟨hbl, hne, ?_⟩⟩
          rw [hb, valSingle_bits hf bits hbl hne] at h
          cases hv : f.val (bits.map fun b => (b.toNat : Int)) with
          | error e => rw [hv] at h; cases h
          | ok y => rw [hv] at h; cases h; rfl
        · cases h
  · rintro ⟨bits, rfl, hv⟩
    obtain ⟨hbl, hne, hv⟩ := (valueAt_iff hf bits b).1 hv
    cases bits with
    | nil => exact absurd rfl hne
    | cons x bits =>
      unfold Boolf.valAny
      simp only [List.map_cons]
      unfold bitArg
      rw [Boolf.valArgs, if_pos (by simpa using hbl), if_pos (by cases x <;> simp)]
      have := valSingle_bits hf (x :: bits) hbl hne
      rw [hv] at this
      exact this

/-- **C162.** With a list or a Binv as first argument `val` goes through its places: the entries at a place are the arguments of `val` for this place, and the first
exception ends it.  An argument that has no place is noticed only there: a shorter one raises `IndexError`, one without places `TypeError`.  When an entry of the result
would be a Binv (nested lists), a `TypeError` is raised at the end. -/
theorem C162_places (f : Boolf) (a : VArg) (rest : List VArg) (L : Nat) (ha : Sized a L) (hl : rest.length + 1 = f.valency) :
    (∀ g : Nat → Bool, (∀ i < L, ∃ c, List.Forall₂ (Place i) (a :: rest) c ∧ f.valAny c = .ok (.bit (g i))) →
      f.valAny (a :: rest) = .ok (.binv ⟨(List.range L).map g⟩)) ∧
    (∀ p < L, (∀ i < p, ∃ c v, List.Forall₂ (Place i) (a :: rest) c ∧ f.valAny c = .ok v) →
      (∀ c e, List.Forall₂ (Place p) (a :: rest) c → f.valAny c = .error e → f.valAny (a :: rest) = .error e) ∧
      (∀ r₁ x r₂, rest = r₁ ++ x :: r₂ → (∀ y ∈ r₁, ∃ c, Place p y c) →
        ((∃ n ≤ p, Sized x n) → f.valAny (a :: rest) = .error .indexError) ∧
        ((∀ n, ¬ Sized x n) → f.valAny (a :: rest) = .error .typeError))) ∧
    ((∀ i < L, ∃ c v, List.Forall₂ (Place i) (a :: rest) c ∧ f.valAny c = .ok v) →
      (∃ p < L, ∃ c r, List.Forall₂ (Place p) (a :: rest) c ∧ f.valAny c = .ok (.binv r)) → f.valAny (a :: rest) = .error .typeError) := by
  have hcol : ∀ i c, List.Forall₂ (Place i) (a :: rest) c → colVal f (a :: rest) i = f.valAny c := by
    intro i c hc
    unfold colVal
    rw [(column_iff _ _ _).2 hc]
    rfl
  rw [valAny_sized f a rest L ha hl]
  refine ⟨fun g hg => ?_, fun p hp hb => ?_, fun hall hx => ?_⟩
  · rw [mapM_ok (g := fun i => VRes.bit (g i))]
    · simp only [bind, Except.bind]
      rw [show (List.range L).map (fun i => VRes.bit (g i)) = ((List.range L).map g).map VRes.bit by rw [List.map_map]; rfl, binvOfVals_bits]
    · intro i hi
      obtain ⟨c, hc, hv⟩ := hg i (List.mem_range.1 hi)
      rw [hcol i c hc, hv]
  · have hb' : ∀ i ∈ List.range p, ∃ v, colVal f (a :: rest) i = .ok v := by
      intro i hi
      obtain ⟨c, v, hc, hv⟩ := hb i (List.mem_range.1 hi)
      exact ⟨v, by rw [hcol i c hc, hv]⟩
    have key : ∀ e, colVal f (a :: rest) p = .error e → (List.range L).mapM (colVal f (a :: rest)) >>= binvOfVals = .error e := by
      intro e he
      rw [range_split hp, mapM_first_error _ _ _ hb' he]
      rfl
    refine ⟨fun c e hc he => key e (by rw [hcol p c hc, he]), fun r₁ x r₂ hr hr1 => ?_⟩
    have hitem : ∀ e, x.item p = .error e → colVal f (a :: rest) p = .error e := by
      intro e he
      unfold colVal
      rw [hr, ← List.cons_append, mapM_first_error (F := fun x : VArg => x.item p) _ _ _ _ he]
      · rfl
      · intro y hy
        rcases List.mem_cons.1 hy with rfl | hy
        · rcases ha with ⟨l, rfl, rfl⟩ | ⟨b, rfl, rfl⟩
          · exact ⟨_, (item_iff _ _ _).2 (.inl ⟨l, rfl, List.getElem?_eq_getElem hp⟩)⟩
          · exact ⟨_, (item_iff _ _ _).2 (.inr ⟨b, _, rfl, List.getElem?_eq_getElem hp, rfl⟩)⟩
        · obtain ⟨c, hc⟩ := hr1 y hy
          exact ⟨c, (item_iff _ _ _).2 hc⟩
    refine ⟨fun ⟨n, hn, hs⟩ => key _ (hitem _ ?_), fun hs => key _ (hitem _ ?_)⟩
    · rcases hs with ⟨l, rfl, rfl⟩ | ⟨b, rfl, rfl⟩
      · unfold VArg.item; simp only; rw [List.getElem?_eq_none hn]
      · unfold VArg.item; simp only; rw [List.getElem?_eq_none hn]
    · cases x with
      | num n => rfl
      | other => rfl
      | seq l => exact absurd (.inl ⟨l, rfl, rfl⟩) (hs l.length)
      | bv b => exact absurd (.inr ⟨b, rfl, rfl⟩) (hs b.vector.length)
  · cases hm : (List.range L).mapM (colVal f (a :: rest)) with
    | error e =>
      exfalso
      obtain ⟨vs, hvs⟩ : ∃ vs, (List.range L).mapM (colVal f (a :: rest)) = .ok vs := by
        refine ⟨(List.range L).map fun i => (colVal f (a :: rest) i).toOption.getD (.bit false), mapM_ok fun i hi => ?_⟩
        obtain ⟨c, v, hc, hv⟩ := hall i (List.mem_range.1 hi)
        rw [hcol i c hc, hv]
        rfl
      rw [hm] at hvs
      cases hvs
    | ok vs =>
      obtain ⟨p, hp, c, r, hc, hv⟩ := hx
      obtain ⟨h1, h2⟩ := (SG.mapM_ok_iff _ _).1 hm
      have hpv : p < vs.length := by rw [← h1, List.length_range]; exact hp
      have := h2 p p vs[p] (List.getElem?_range hp) (List.getElem?_eq_getElem hpv)
      rw [hcol p c hc, hv] at this
      exact binvOfVals_binv vs ⟨r, by rw [Except.ok.inj this]; exact List.getElem_mem hpv⟩

/-- **C162.** Exactly when `val` returns a Binv: the first argument is a list or a Binv as long as the result, all arguments have bits at its places, and each entry
is the value of the function for the bits at this place.  (What longer arguments have at further places does not matter; when the first argument is empty, the others
can be anything.) -/
theorem C162_many (f : Boolf) (hf : Obj f) (args : List VArg) (r : Binv) :
    f.valAny args = .ok (.binv r) ↔ args.length = f.valency ∧ ∃ a rest, args = a :: rest ∧ Sized a r.vector.length ∧
      ∀ (i : Nat) (b : Bool), r.vector[i]? = some b → ∃ bits : List Bool, List.Forall₂ (Place i) args (bits.map bitArg) ∧ ValueAt f bits b := by
  constructor
  · intro h
    cases args with
    | nil =>
      rw [Boolf.valAny] at h
      split at h <;> cases h
    | cons a rest =>
      by_cases hl : rest.length + 1 = f.valency
      swap
      · unfold Boolf.valAny at h
        cases a <;> · simp only at h; rw [Boolf.valArgs, if_neg hl] at h; cases h
      by_cases hs : ∃ L, Sized a L
      · obtain ⟨L, hs⟩ := hs
        rw [valAny_sized f a rest L hs hl] at h
        cases hm : (List.range L).mapM (colVal f (a :: rest)) with
        | error e => rw [hm] at h; cases h
        | ok vs =>
          rw [hm] at h
          obtain ⟨bits, h1, h2⟩ := binvOfVals_ok h
          cases h2
          obtain ⟨m1, m2⟩ := (SG.mapM_ok_iff _ _).1 hm
          have hL : bits.length = L := by rw [List.length_range, h1, List.length_map] at m1; exact m1.symm
          refine ⟨hl, a, rest, rfl, by rw [hL]; exact hs, fun i b hb => ?_⟩
          have hi : i < L := by rw [← hL]; exact (List.getElem?_eq_some_iff.1 hb).1
          have hv := m2 i i (.bit b) (List.getElem?_range hi) (by rw [h1, List.getElem?_map, hb]; rfl)
          unfold colVal at hv
          cases hc : (a :: rest).mapM (·.item i) with
          | error e => rw [hc] at hv; cases hv
          | ok c =>
            rw [hc] at hv
            obtain ⟨bits', rfl, hva⟩ := (C162_single f hf c b).1 hv
            exact ⟨bits', (column_iff _ _ _).1 hc, hva⟩
      · exfalso
        push Not at hs
        unfold Boolf.valAny at h
        simp only at h
        cases a with
        | seq l => exact hs l.length (.inl ⟨l, rfl, rfl⟩)
        | bv c => exact hs c.vector.length (.inr ⟨c, rfl, rfl⟩)
        | other => rw [Boolf.valArgs, if_pos hl] at h; cases h
        | num n =>
          rw [Boolf.valArgs, if_pos hl] at h
          split at h
          · obtain ⟨_, _, _, hb⟩ := valSingle_ok h
            cases hb
          · cases h
  · rintro ⟨hl, a, rest, rfl, hs, hb⟩
    rw [(C162_places f a rest _ hs hl).1 (fun i => r.vector.getD i false)]
    · congr 2
      cases r with
      | mk v =>
        congr 1
        apply List.ext_getElem?
        intro i
        rw [List.getElem?_map]
        by_cases hi : i < v.length
        · rw [List.getElem?_range hi, Option.map_some, List.getD_eq_getElem?_getD, List.getElem?_eq_getElem hi]; rfl
        · rw [List.getElem?_eq_none (by simpa using hi), List.getElem?_eq_none (by simpa using hi)]; rfl
    · intro i hi
      obtain ⟨bits, h1, h2⟩ := hb i _ (List.getElem?_eq_getElem hi)
      refine ⟨_, h1, (C162_single f hf _ _).2 ⟨bits, rfl, ?_⟩⟩
      rw [List.getD_eq_getElem?_getD, List.getElem?_eq_getElem hi]
      exact h2

/-- **C162.** The other exceptions: the wrong number of arguments; no argument at all (for a constant); a first argument that is neither a bit nor a list nor a Binv;
and after a bit as first argument a list (not hashable) or anything else that is not a bit. -/
theorem C162_errors (f : Boolf) :
    (∀ args : List VArg, args.length ≠ f.valency → f.valAny args = .error .sarityMismatch) ∧
    (f.valency = 0 → f.valAny [] = .error .indexError) ∧
    (∀ a rest, rest.length + 1 = f.valency → (∀ L, ¬ Sized a L) → (∀ b, a ≠ bitArg b) → f.valAny (a :: rest) = .error .unexpectedArgument) ∧
    (∀ b rest, rest.length + 1 = f.valency →
      ((∃ l, VArg.seq l ∈ rest) → f.valAny (bitArg b :: rest) = .error .typeError) ∧
      ((∀ l, VArg.seq l ∉ rest) → (∃ x ∈ rest, ∀ c, x ≠ bitArg c) → f.valAny (bitArg b :: rest) = .error .unexpectedArgument)) := by
  refine ⟨fun args hl => ?_, fun h0 => ?_, fun a rest hl hs hb => ?_, fun b rest hl => ?_⟩
  · cases args with
    | nil =>
      rw [Boolf.valAny, if_neg]
      intro h0
      exact hl h0.symm
    | cons a rest =>
      unfold Boolf.valAny
      cases a <;> · simp only; rw [Boolf.valArgs, if_neg (by simpa using hl)]
  · rw [Boolf.valAny, if_pos h0]
  · unfold Boolf.valAny
    simp only
    cases a with
    | seq l => exact absurd (.inl ⟨l, rfl, rfl⟩) (hs l.length)
    | bv b => exact absurd (.inr ⟨b, rfl, rfl⟩) (hs b.vector.length)
    | other => rw [Boolf.valArgs, if_pos hl]
    | num n =>
      rw [Boolf.valArgs, if_pos hl, if_neg]
      rintro (rfl | rfl)
      · exact hb false rfl
      · exact hb true rfl
  · have e : f.valAny (bitArg b :: rest) = f.valSingle (bitArg b :: rest) := by
      unfold Boolf.valAny bitArg
      simp only
      rw [Boolf.valArgs, if_pos hl, if_pos (by cases b <;> simp)]
    rw [e]
    refine ⟨fun ⟨l, hm⟩ => ?_, fun hno ⟨x, hx, hxb⟩ => ?_⟩
    · unfold Boolf.valSingle issubset01
      rw [if_pos (List.any_eq_true.2 ⟨_, List.mem_cons_of_mem _ hm, rfl⟩)]
      rfl
    · unfold Boolf.valSingle
      cases hs : issubset01 (bitArg b :: rest) with
      | error err =>
        exfalso
        unfold issubset01 at hs
        split at hs
        · rename_i hany
          obtain ⟨y, hy, hyl⟩ := List.any_eq_true.1 hany
          rcases List.mem_cons.1 hy with rfl | hy
          · cases hyl
          · cases y with
            | seq l => exact hno l hy
            | _ => cases hyl
        · cases hs
      | ok t =>
        cases t with
        | false => rfl
        | true =>
          exfalso
          obtain ⟨bits, hb⟩ := bits_of_issubset01 _ hs
          have : x ∈ bits.map bitArg := by rw [← hb]; exact List.mem_cons_of_mem _ hx
          obtain ⟨c, _, hc⟩ := List.mem_map.1 this
          exact hxb c hc.symm

/-- The conjunction of the atoms 0 and 1: a list and a Binv can be mixed, and surplus entries are ignored, whatever they are; an empty first argument is enough; a nested
list is refused. -/
example : ∃ f : Boolf, Obj f ∧ f.valency = 2 ∧
    f.valAny [.seq [.num 0, .num 1, .num 1], .bv ⟨[true, false, true, true]⟩] = .ok (.binv ⟨[false, false, true]⟩) ∧
    f.valAny [.seq [.num 1], .seq [.num 1, .other]] = .ok (.binv ⟨[true]⟩) ∧
    f.valAny [.seq [], .num 7] = .ok (.binv ⟨[]⟩) ∧
    f.valAny [.seq [.num 1, .num 1], .seq [.num 1]] = .error .indexError ∧
    f.valAny [.seq [.seq [.num 1]], .seq [.seq [.num 1]]] = .error .typeError := by
  obtain ⟨_, _, e⟩ := newTT_explicit "0001".toList [false, false, false, true] [0, 1] 2 (by decide) (by decide) (by decide) (by intro n; simp; omega) (by decide) (by decide)
  exact ⟨_, e.reach.obj, by decide, by decide +kernel, by decide +kernel, by decide +kernel, by decide +kernel, by decide +kernel⟩

end Verif.BF
