import Verif.Boolf.Model27
import Verif.Boolf.Props33

/-! # Attributes that are computed when they are read for the first time; property C154 -/

namespace Verif.BF
open Verif.Py Verif.BV Verif.P Verif.W Verif.SP
open Verif.SPC (SetPartComp)
open Verif.A hiding Mat

/-! ## Specification -/

/-- The value of an attribute as a function of the object, without any hidden variable. -/
def Boolf.value (f : Boolf) : (a : Attr) → Except Err a.Val
  | .layeredTT => f.layeredTT
  | .layeredWeight => f.layeredWeight
  | .byWeight => f.fullspotsByWeight
  | .layeredFullspots => f.layeredFullspots
  | .weights => f.fullspotWeights
  | .links => f.fullspotlinksByWeight
  | .linkCount => f.numberOfFullspotlinks
  | .splitsEqual => f.splitsEqual
  | .splitsOnesided => f.splitsOnesided
  | .onesidedAtomkeys => f.onesidedAtomkeys
  | .bloat => f.bloat
  | .equalityBlocks => f.eqBlocksAndPrefSide.map Prod.fst
  | .preferredSides => f.eqBlocksAndPrefSide.map Prod.snd
  | .fissions => f.fissions
  | .fissionsLayered => f.fissionsLayered
  | .fissionsWeight => f.fissionsWeight
  | .fissionsWeightLayered => f.fissionsWeightLayered
  | .spectra => f.fissionWalshSpectra
  | .spectraAbs => f.fissionWalshSpectraAbs
  | .spectraLayered => f.fissionWalshSpectraLayered
  | .spectraLayeredAbs => f.fissionWalshSpectraLayeredAbs
  | .zipped => f.fissionWalshSpectraZipped
  | .absZipped => f.fissionWalshSpectraAbsZipped

/-! ## Invariant -/

/-- Every hidden variable that is set has the value of the attribute. -/
structure LazyInv (f : Boolf) (s : Lazy) : Prop where
  layeredTT : ∀ v, s.layeredTT = some v → f.layeredTT = .ok v
  layeredWeight : ∀ v, s.layeredWeight = some v → f.layeredWeight = .ok v
  splitsEqual : ∀ v, s.splitsEqual = some v → f.splitsEqual = .ok v
  splitsOnesided : ∀ v, s.splitsOnesided = some v → f.splitsOnesided = .ok v
  equalityBlocks : ∀ v, s.equalityBlocks = some v → f.eqBlocksAndPrefSide.map Prod.fst = .ok v
  preferredSides : ∀ v, s.preferredSides = some v → f.eqBlocksAndPrefSide.map Prod.snd = .ok v
  byWeight : ∀ v, s.byWeight = some v → f.fullspotsByWeight = .ok v
  layeredFullspots : ∀ v, s.layeredFullspots = some v → f.layeredFullspots = .ok v
  weights : ∀ v, s.weights = some v → f.fullspotWeights = .ok v
  links : ∀ v, s.links = some v → f.fullspotlinksByWeight = .ok v
  linkCount : ∀ v, s.linkCount = some v → f.numberOfFullspotlinks = .ok v
  spectra : ∀ v, s.spectra = some v → f.fissionWalshSpectra = .ok v
  spectraAbs : ∀ v, s.spectraAbs = some v → f.fissionWalshSpectraAbs = .ok v
  spectraLayered : ∀ v, s.spectraLayered = some v → f.fissionWalshSpectraLayered = .ok v
  spectraLayeredAbs : ∀ v, s.spectraLayeredAbs = some v → f.fissionWalshSpectraLayeredAbs = .ok v
  bloat : ∀ v, s.bloat = some v → f.bloat = .ok v
  onesidedAtomkeys : ∀ v, s.onesidedAtomkeys = some v → f.onesidedAtomkeys = .ok v

/-- From a state with the invariant, the code has the result `V`, and leads to a state with the invariant, which has the property `P` if there is no exception. -/
def Spec {α : Type} (f : Boolf) (r : Read α) (V : Except Err α) (P : Lazy → Prop := fun _ => True) : Prop :=
  ∀ s, LazyInv f s → (r s).1 = V ∧ LazyInv f (r s).2 ∧ ∀ v, V = .ok v → P (r s).2

theorem spec_lift {α : Type} (f : Boolf) (x : Except Err α) : Spec f (lift x) x := fun _ hs => ⟨rfl, hs, fun _ _ => trivial⟩

theorem spec_pure {α : Type} (f : Boolf) (x : α) : Spec f (pure x) (.ok x) := fun _ hs => ⟨rfl, hs, fun _ _ => trivial⟩

theorem spec_bind {α β : Type} {f : Boolf} {x : Read α} {V : Except Err α} {g : α → Read β} {W : α → Except Err β} {P : Lazy → Prop}
    (hx : Spec f x V) (hg : ∀ a, V = .ok a → Spec f (g a) (W a) P) : Spec f (x >>= g) (V >>= W) P := by
  intro s hs
  obtain ⟨h1, h2, _⟩ := hx s hs
  have e : (x >>= g) s = match x s with
    | (.ok a, s) => g a s
    | (.error e, s) => (.error e, s) := rfl
  rw [e]
  rcases hr : x s with ⟨r, s'⟩
  rw [hr] at h1 h2
  simp only at h1 h2
  subst h1
  cases r with
  | ok a => exact hg a rfl s' h2
  | error e => exact ⟨rfl, h2, fun v hv => by cases hv⟩

theorem spec_getter {α : Type} {f : Boolf} {field : Lazy → Option α} {magic : Read Unit} {V : Except Err α}
    (hf : ∀ s, LazyInv f s → ∀ v, field s = some v → V = .ok v)
    (hm : Spec f magic (V >>= fun _ => .ok ()) fun s => ∀ v, V = .ok v → field s = some v) : Spec f (getter field magic) V := by
  intro s hs
  unfold getter
  cases h : field s with
  | some v => exact ⟨(hf s hs v h).symm, hs, fun _ _ => trivial⟩
  | none =>
    obtain ⟨h1, h2, h3⟩ := hm s hs
    rcases hr : magic s with ⟨r, s'⟩
    rw [hr] at h1 h2 h3
    simp only at h1 h2 h3 ⊢
    subst h1
    cases V with
    | ok v =>
      have := h3 () rfl v rfl
      simp only [bind, Except.bind, this]
      exact ⟨trivial, h2, fun _ _ => trivial⟩
    | error e => exact ⟨rfl, h2, fun _ _ => trivial⟩

theorem spec_work {α : Type} {f : Boolf} {field : Lazy → Option α} {work : Read α} {V : Except Err α}
    (hf : ∀ s, LazyInv f s → ∀ v, field s = some v → V = .ok v) (hw : Spec f work V) : Spec f (workGetter field work) V := by
  intro s hs
  unfold workGetter
  cases h : field s with
  | some v => exact ⟨(hf s hs v h).symm, hs, fun _ _ => trivial⟩
  | none => exact hw s hs

theorem spec_cached {α : Type} {f : Boolf} {field : Lazy → Option α} {set : α → Lazy → Lazy} {compute : Read α} {V : Except Err α}
    (hf : ∀ s, LazyInv f s → ∀ v, field s = some v → V = .ok v) (hc : Spec f compute V)
    (hset : ∀ s, LazyInv f s → ∀ v, V = .ok v → LazyInv f (set v s)) : Spec f (cached field set compute) V := by
  intro s hs
  unfold cached
  cases h : field s with
  | some v => exact ⟨(hf s hs v h).symm, hs, fun _ _ => trivial⟩
  | none =>
    obtain ⟨h1, h2, _⟩ := hc s hs
    rcases hr : compute s with ⟨r, s'⟩
    rw [hr] at h1 h2
    simp only at h1 h2 ⊢
    subst h1
    cases r with
    | ok v => exact ⟨rfl, hset s' h2 v rfl, fun _ _ => trivial⟩
    | error e => exact ⟨rfl, h2, fun _ _ => trivial⟩

/-! ## layers -/

theorem spec_layeredMagic (f : Boolf) : Spec f (layeredMagic f) (f.layeredTT >>= fun _ => .ok ())
    fun s => s.layeredTT.map Except.ok = some f.layeredTT ∧ s.layeredWeight.map Except.ok = some f.layeredWeight := by
  intro s hs
  have e : f.layeredTT = flatToLayered (f.root.vector.map Bool.toNat) := rfl
  have ew : f.layeredWeight = f.layeredTT.map fun l => l.map List.sum := by
    unfold Boolf.layeredWeight
    cases f.layeredTT <;> rfl
  have em : layeredMagic f s = match flatToLayered (f.root.vector.map Bool.toNat) with
      | .ok l => (.ok (), { s with layeredTT := some l, layeredWeight := some (l.map List.sum) })
      | .error e => (.error e, s) := by
    unfold layeredMagic
    cases h : flatToLayered (f.root.vector.map Bool.toNat) <;> rfl
  rw [em, ← e]
  cases h : f.layeredTT with
  | ok l =>
    rw [h] at ew
    exact ⟨rfl, { hs with layeredTT := fun v hv => by cases hv; exact h, layeredWeight := fun v hv => by cases hv; exact ew },
      fun _ _ => ⟨rfl, by rw [ew]; rfl⟩⟩
  | error e => exact ⟨rfl, hs, fun v hv => by cases hv⟩

theorem okBind {α β : Type} (a : α) (k : α → Except Err β) : (Except.ok a >>= k) = k a := rfl

theorem field_of_map {α : Type} {x : Option α} {V : Except Err α} (h : x.map Except.ok = some V) : ∀ v, V = .ok v → x = some v := by
  intro v hv
  subst hv
  cases x with
  | none => cases h
  | some w => simp only [Option.map_some, Option.some.injEq, Except.ok.injEq] at h; rw [h]

theorem Spec.mono {α : Type} {f : Boolf} {r : Read α} {V : Except Err α} {P Q : Lazy → Prop} (h : Spec f r V P) (hpq : ∀ s, P s → Q s) : Spec f r V Q :=
  fun s hs => ⟨(h s hs).1, (h s hs).2.1, fun v hv => hpq _ ((h s hs).2.2 v hv)⟩

theorem spec_readLayeredTT (f : Boolf) : Spec f (readLayeredTT f) f.layeredTT :=
  spec_getter (fun _ hs => hs.layeredTT) ((spec_layeredMagic f).mono fun _ h => field_of_map h.1)

theorem spec_readLayeredWeight (f : Boolf) : Spec f (readLayeredWeight f) f.layeredWeight := by
  refine spec_getter (fun _ hs => hs.layeredWeight) ?_
  have : (f.layeredWeight >>= fun _ => .ok ()) = (f.layeredTT >>= fun _ => .ok () : Except Err Unit) := by
    unfold Boolf.layeredWeight
    cases f.layeredTT <;> rfl
  rw [this]
  exact (spec_layeredMagic f).mono fun _ h => field_of_map h.2

/-! ## full spots -/

theorem spec_weightMagic (f : Boolf) : Spec f (weightMagic f) (f.fullspotAtoms >>= fun _ => .ok ())
    fun s => s.byWeight.map Except.ok = some f.fullspotsByWeight ∧ s.layeredFullspots.map Except.ok = some f.layeredFullspots ∧
      s.weights.map Except.ok = some f.fullspotWeights := by
  intro s hs
  unfold Boolf.fullspotWeights Boolf.fullspotsByWeight Boolf.layeredFullspots
  cases h : f.fullspotAtoms with
  | ok l =>
    have e1 : f.fullspotsByWeight = .ok (weightLoop l [] []).1 := by unfold Boolf.fullspotsByWeight; rw [h]; rfl
    have e2 : f.layeredFullspots = .ok ((List.range (f.valency + 1)).map fun weight => (((weightLoop l [] []).2.get? weight).getD []).insertionSort (· ≤ ·)) := by
      unfold Boolf.layeredFullspots; rw [h]; rfl
    have e3 : f.fullspotWeights = .ok ((weightLoop l [] []).1.keys.insertionSort (· ≤ ·)) := by unfold Boolf.fullspotWeights; rw [e1]; rfl
    have em : weightMagic f s = (.ok (), { s with byWeight := some (weightLoop l [] []).1, layeredFullspots := some ((List.range (f.valency + 1)).map fun weight => (((weightLoop l [] []).2.get? weight).getD []).insertionSort (· ≤ ·)), weights := some ((weightLoop l [] []).1.keys.insertionSort (· ≤ ·)) }) := by
      unfold weightMagic
      rw [h]
      rfl
    rw [em]
    refine ⟨rfl, { hs with byWeight := fun v hv => ?_, layeredFullspots := fun v hv => ?_, weights := fun v hv => ?_ }, fun _ _ => ⟨rfl, rfl, rfl⟩⟩
    · cases hv; exact e1
    · cases hv; exact e2
    · cases hv; exact e3
  | error e =>
    have em : weightMagic f s = (.error e, s) := by
      unfold weightMagic
      rw [h]
      rfl
    rw [em]
    exact ⟨rfl, hs, fun v hv => by cases hv⟩

theorem spec_readByWeight (f : Boolf) : Spec f (readByWeight f) f.fullspotsByWeight := by
  refine spec_getter (fun _ hs => hs.byWeight) ?_
  have : (f.fullspotsByWeight >>= fun _ => .ok ()) = (f.fullspotAtoms >>= fun _ => .ok () : Except Err Unit) := by
    unfold Boolf.fullspotsByWeight
    cases f.fullspotAtoms <;> rfl
  rw [this]
  exact (spec_weightMagic f).mono fun _ h => field_of_map h.1

theorem spec_readLayeredFullspots (f : Boolf) : Spec f (readLayeredFullspots f) f.layeredFullspots := by
  refine spec_getter (fun _ hs => hs.layeredFullspots) ?_
  have : (f.layeredFullspots >>= fun _ => .ok ()) = (f.fullspotAtoms >>= fun _ => .ok () : Except Err Unit) := by
    unfold Boolf.layeredFullspots
    cases f.fullspotAtoms <;> rfl
  rw [this]
  exact (spec_weightMagic f).mono fun _ h => field_of_map h.2.1

theorem spec_readWeights (f : Boolf) : Spec f (readWeights f) f.fullspotWeights := by
  refine spec_getter (fun _ hs => hs.weights) ?_
  have : (f.fullspotWeights >>= fun _ => .ok ()) = (f.fullspotAtoms >>= fun _ => .ok () : Except Err Unit) := by
    unfold Boolf.fullspotWeights Boolf.fullspotsByWeight
    cases f.fullspotAtoms <;> rfl
  rw [this]
  exact (spec_weightMagic f).mono fun _ h => field_of_map h.2.2

/-- two assignments at the end -/
theorem spec_store2 {f : Boolf} {h k : Lazy → Lazy} {P : Lazy → Prop} (hi : ∀ s, LazyInv f s → LazyInv f (k (h s))) (hp : ∀ s, P (k (h s))) :
    Spec f (store h >>= fun _ => store k) (.ok ()) P := fun s hs => ⟨rfl, hi s hs, fun _ _ => hp s⟩

theorem spec_linksMagic (f : Boolf) : Spec f (linksMagic f) (f.fullspotlinks >>= fun _ => .ok ())
    fun s => s.links.map Except.ok = some f.fullspotlinksByWeight ∧ s.linkCount.map Except.ok = some f.numberOfFullspotlinks := by
  have e : (f.fullspotlinks >>= fun _ => .ok () : Except Err Unit) = f.fullspotWeights >>= fun weights => f.fullspotsByWeight >>= fun byWeight =>
      linksLoop weights byWeight (List.range (weights.length - 1)) [] 0 >>= fun _ => .ok () := by
    unfold Boolf.fullspotlinks
    cases f.fullspotWeights with
    | error e => rfl
    | ok w =>
      cases f.fullspotsByWeight with
      | error e => rfl
      | ok b => rfl
  rw [e]
  refine spec_bind (spec_readWeights f) fun w hw => ?_
  refine spec_bind (spec_readByWeight f) fun b hb => ?_
  refine spec_bind (spec_lift f _) fun r hr => ?_
  have e0 : f.fullspotlinks = .ok r := by
    unfold Boolf.fullspotlinks
    rw [hw, hb]
    exact hr
  have e1 : f.fullspotlinksByWeight = .ok r.1 := by unfold Boolf.fullspotlinksByWeight; rw [e0]; rfl
  have e2 : f.numberOfFullspotlinks = .ok r.2 := by unfold Boolf.numberOfFullspotlinks; rw [e0]; rfl
  refine spec_store2 (fun s hs => { hs with links := fun v hv => ?_, linkCount := fun v hv => ?_ }) fun s => ⟨by rw [e1]; rfl, by rw [e2]; rfl⟩
  · cases hv; exact e1
  · cases hv; exact e2

theorem spec_readLinks (f : Boolf) : Spec f (readLinks f) f.fullspotlinksByWeight := by
  refine spec_getter (fun _ hs => hs.links) ?_
  have : (f.fullspotlinksByWeight >>= fun _ => .ok ()) = (f.fullspotlinks >>= fun _ => .ok () : Except Err Unit) := by
    unfold Boolf.fullspotlinksByWeight
    cases f.fullspotlinks <;> rfl
  rw [this]
  exact (spec_linksMagic f).mono fun _ h => field_of_map h.1

theorem spec_readLinkCount (f : Boolf) : Spec f (readLinkCount f) f.numberOfFullspotlinks := by
  refine spec_getter (fun _ hs => hs.linkCount) ?_
  have : (f.numberOfFullspotlinks >>= fun _ => .ok ()) = (f.fullspotlinks >>= fun _ => .ok () : Except Err Unit) := by
    unfold Boolf.numberOfFullspotlinks
    cases f.fullspotlinks <;> rfl
  rw [this]
  exact (spec_linksMagic f).mono fun _ h => field_of_map h.2

/-! ## splits -/

theorem spec_splitsMagic (f : Boolf) : Spec f (splitsMagic f) (f.splitsEqualAndOnesided >>= fun _ => .ok ())
    fun s => s.splitsEqual.map Except.ok = some f.splitsEqual ∧ s.splitsOnesided.map Except.ok = some f.splitsOnesided := by
  have fin : ∀ r, f.splitsEqualAndOnesided = .ok r →
      Spec f (store (fun s => { s with splitsEqual := some r.1 }) >>= fun _ => store (fun s => { s with splitsOnesided := some r.2 })) (.ok ())
        fun s => s.splitsEqual.map Except.ok = some f.splitsEqual ∧ s.splitsOnesided.map Except.ok = some f.splitsOnesided := by
    intro r hr
    have e1 : f.splitsEqual = .ok r.1 := by unfold Boolf.splitsEqual; rw [hr]; rfl
    have e2 : f.splitsOnesided = .ok r.2 := by unfold Boolf.splitsOnesided; rw [hr]; rfl
    refine spec_store2 (fun s hs => { hs with splitsEqual := fun v hv => ?_, splitsOnesided := fun v hv => ?_ }) fun s => ⟨by rw [e1]; rfl, by rw [e2]; rfl⟩
    · cases hv; exact e1
    · cases hv; exact e2
  unfold splitsMagic
  by_cases h0 : f.valency = 0
  · rw [if_pos h0]
    have : f.splitsEqualAndOnesided = .ok ([], []) := by unfold Boolf.splitsEqualAndOnesided; rw [if_pos h0]
    have h := fin _ this
    rw [this]
    exact h
  · rw [if_neg h0]
    by_cases h1 : f.valency = 1
    · rw [if_pos h1]
      have : f.splitsEqualAndOnesided = .ok ([], [true]) := by unfold Boolf.splitsEqualAndOnesided; rw [if_neg h0, if_pos h1]
      have h := fin _ this
      rw [this]
      exact h
    · rw [if_neg h1]
      have e : (f.splitsEqualAndOnesided >>= fun _ => .ok () : Except Err Unit) = f.splits >>= fun splits => f.splitsOverlapCounts >>= fun counts =>
          onesidedLoop splits counts [] (List.replicate f.valency false) >>= fun _ => .ok () := by
        unfold Boolf.splitsEqualAndOnesided
        rw [if_neg h0, if_neg h1]
        cases f.splits with
        | error e => rfl
        | ok s =>
          cases f.splitsOverlapCounts with
          | error e => rfl
          | ok c => rfl
      rw [e]
      refine spec_bind (spec_lift f _) fun sp hsp => ?_
      refine spec_bind (spec_lift f _) fun c hc => ?_
      refine spec_bind (spec_lift f _) fun r hr => ?_
      apply fin
      unfold Boolf.splitsEqualAndOnesided
      rw [if_neg h0, if_neg h1, hsp, hc]
      exact hr

theorem spec_readSplitsEqual (f : Boolf) : Spec f (readSplitsEqual f) f.splitsEqual := by
  refine spec_getter (fun _ hs => hs.splitsEqual) ?_
  have : (f.splitsEqual >>= fun _ => .ok ()) = (f.splitsEqualAndOnesided >>= fun _ => .ok () : Except Err Unit) := by
    unfold Boolf.splitsEqual
    cases f.splitsEqualAndOnesided <;> rfl
  rw [this]
  exact (spec_splitsMagic f).mono fun _ h => field_of_map h.1

theorem spec_readSplitsOnesided (f : Boolf) : Spec f (readSplitsOnesided f) f.splitsOnesided := by
  refine spec_getter (fun _ hs => hs.splitsOnesided) ?_
  have : (f.splitsOnesided >>= fun _ => .ok ()) = (f.splitsEqualAndOnesided >>= fun _ => .ok () : Except Err Unit) := by
    unfold Boolf.splitsOnesided
    cases f.splitsEqualAndOnesided <;> rfl
  rw [this]
  exact (spec_splitsMagic f).mono fun _ h => field_of_map h.2

theorem spec_readOnesidedAtomkeys (f : Boolf) : Spec f (readOnesidedAtomkeys f) f.onesidedAtomkeys := by
  refine spec_cached (fun _ hs => hs.onesidedAtomkeys) ?_ fun s hs v hv => { hs with onesidedAtomkeys := fun w hw => by cases hw; exact hv }
  exact spec_bind (spec_readSplitsOnesided f) fun a _ => spec_pure f _

theorem spec_readBloat (f : Boolf) : Spec f (readBloat f) f.bloat := by
  refine spec_cached (fun _ hs => hs.bloat) ?_ fun s hs v hv => { hs with bloat := fun w hw => by cases hw; exact hv }
  exact spec_bind (spec_lift f _) fun sp _ => spec_bind (spec_readSplitsEqual f) fun e _ => spec_lift f _

theorem spec_blocksMagic (f : Boolf) : Spec f (blocksMagic f) (f.eqBlocksAndPrefSide >>= fun _ => .ok ())
    fun s => s.equalityBlocks.map Except.ok = some (f.eqBlocksAndPrefSide.map Prod.fst) ∧ s.preferredSides.map Except.ok = some (f.eqBlocksAndPrefSide.map Prod.snd) := by
  have fin : ∀ r, f.eqBlocksAndPrefSide = .ok r →
      Spec f (store (fun s => { s with equalityBlocks := some r.1 }) >>= fun _ => store (fun s => { s with preferredSides := some r.2 })) (.ok ())
        fun s => s.equalityBlocks.map Except.ok = some (f.eqBlocksAndPrefSide.map Prod.fst) ∧ s.preferredSides.map Except.ok = some (f.eqBlocksAndPrefSide.map Prod.snd) := by
    intro r hr
    have e1 : f.eqBlocksAndPrefSide.map Prod.fst = .ok r.1 := by rw [hr]; rfl
    have e2 : f.eqBlocksAndPrefSide.map Prod.snd = .ok r.2 := by rw [hr]; rfl
    refine spec_store2 (fun s hs => { hs with equalityBlocks := fun v hv => ?_, preferredSides := fun v hv => ?_ }) fun s => ⟨by rw [e1]; rfl, by rw [e2]; rfl⟩
    · cases hv; exact e1
    · cases hv; exact e2
  unfold blocksMagic
  by_cases h0 : f.isConstant = true
  · rw [if_pos h0]
    have : f.eqBlocksAndPrefSide = .ok ([], []) := by unfold Boolf.eqBlocksAndPrefSide; rw [if_pos h0]
    have h := fin _ this
    rw [this] at h ⊢
    exact h
  · rw [if_neg h0]
    have e : f.eqBlocksAndPrefSide = f.splitsEqual >>= fun equal =>
        (do
          let part : SetPart Unit ← mergeAll (newPart []) ((equal.filter Prod.snd).map fun p => ((p.1.1 : Int), (p.1.2 : Int)))
          part.blocksWithSingletons { length := some f.valency } : Except Err (List (List Int))) >>= fun blocks => f.splits >>= fun splits => f.bloat >>= fun bloat =>
        (blocks.mapM fun block : List Int => preferredSide splits bloat block) >>= fun preferred =>
        ((blocks.zip preferred).mapM fun p : List Int × Option Int => representativeAtomkey p.1 p.2) >>= fun keys =>
        sortByKeys keys blocks >>= fun blocks => sortByKeys keys preferred >>= fun preferred => .ok (blocks, preferred) := by
      unfold Boolf.eqBlocksAndPrefSide
      rw [if_neg h0]
      unfold Boolf.equalityPartition
      cases f.splitsEqual <;> rfl
    have e' : (f.eqBlocksAndPrefSide >>= fun _ => .ok () : Except Err Unit) = f.splitsEqual >>= fun equal =>
        (do
          let part : SetPart Unit ← mergeAll (newPart []) ((equal.filter Prod.snd).map fun p => ((p.1.1 : Int), (p.1.2 : Int)))
          part.blocksWithSingletons { length := some f.valency } : Except Err (List (List Int))) >>= fun blocks => f.splits >>= fun splits => f.bloat >>= fun bloat =>
        (blocks.mapM fun block : List Int => preferredSide splits bloat block) >>= fun preferred =>
        ((blocks.zip preferred).mapM fun p : List Int × Option Int => representativeAtomkey p.1 p.2) >>= fun keys =>
        sortByKeys keys blocks >>= fun blocks => sortByKeys keys preferred >>= fun preferred => .ok () := by
      rw [e]
      simp only [bind_assoc]
      rfl
    rw [e']
    refine spec_bind (spec_readSplitsEqual f) fun a1 h1 => ?_
    refine spec_bind (spec_lift f _) fun a2 h2 => ?_
    refine spec_bind (spec_lift f _) fun a3 h3 => ?_
    refine spec_bind (spec_readBloat f) fun a4 h4 => ?_
    refine spec_bind (spec_lift f _) fun a5 h5 => ?_
    refine spec_bind (spec_lift f _) fun a6 h6 => ?_
    refine spec_bind (spec_lift f _) fun a7 h7 => ?_
    refine spec_bind (spec_lift f _) fun a8 h8 => ?_
    refine fin (a7, a8) ?_
    rw [e, h1, okBind, h2, okBind, h3, okBind, h4, okBind, h5, okBind, h6, okBind, h7, okBind, h8, okBind]

theorem spec_readEqualityBlocks (f : Boolf) : Spec f (readEqualityBlocks f) (f.eqBlocksAndPrefSide.map Prod.fst) := by
  refine spec_getter (fun _ hs => hs.equalityBlocks) ?_
  have : (f.eqBlocksAndPrefSide.map Prod.fst >>= fun _ => .ok ()) = (f.eqBlocksAndPrefSide >>= fun _ => .ok () : Except Err Unit) := by
    cases f.eqBlocksAndPrefSide <;> rfl
  rw [this]
  exact (spec_blocksMagic f).mono fun _ h => field_of_map h.1

theorem spec_readPreferredSides (f : Boolf) : Spec f (readPreferredSides f) (f.eqBlocksAndPrefSide.map Prod.snd) := by
  refine spec_getter (fun _ hs => hs.preferredSides) ?_
  have : (f.eqBlocksAndPrefSide.map Prod.snd >>= fun _ => .ok ()) = (f.eqBlocksAndPrefSide >>= fun _ => .ok () : Except Err Unit) := by
    cases f.eqBlocksAndPrefSide <;> rfl
  rw [this]
  exact (spec_blocksMagic f).mono fun _ h => field_of_map h.2

/-! ## fissions -/

theorem spec_fst {α β : Type} {f : Boolf} {r : Read β} {V : Except Err β} (g : β → α) (h : Spec f r V) : Spec f (r >>= fun x => pure (g x)) (V >>= fun x => .ok (g x)) :=
  spec_bind h fun _ _ => spec_pure f _

theorem spec_fissionsWork (f : Boolf) : Spec f (fissionsWork f) (f.fissions >>= fun main =>
    (main.mapM fun p : Binv × Binv => do return (← flatToLayered (ints p.1), ← flatToLayered (ints p.2)) : Except Err _) >>= fun layered => .ok (main, layered)) :=
  spec_bind (spec_lift f _) fun _ _ => spec_bind (spec_lift f _) fun _ _ => spec_pure f _

theorem fissions_layered_ok {f : Boolf} (hf : Obj f) : (∃ l m, f.fissions = .ok l ∧ f.fissionsLayered = .ok m) ∨ (f.adicity = 0 ∧ f.fissions = .error .assertion) := by
  rcases Nat.eq_zero_or_pos f.adicity with h0 | h0
  · exact .inr ⟨h0, ((C91_single f hf).1 h0).1⟩
  · obtain ⟨l, hl, _⟩ := C91_fissions f hf h0
    obtain ⟨m, hm, _⟩ := C91_layered f hf h0
    exact .inl ⟨l, m, hl, hm⟩

theorem spec_readFissions {f : Boolf} (hf : Obj f) : Spec f (readFissions f) f.fissions := by
  refine spec_work (fun _ _ _ hv => by cases hv) ?_
  have h := spec_fst Prod.fst (spec_fissionsWork f)
  rcases fissions_layered_ok hf with ⟨l, m, hl, hm⟩ | ⟨_, hl⟩
  · unfold Boolf.fissionsLayered at hm
    rw [hl, okBind] at hm
    rw [hl, okBind, hm] at h
    rw [hl]
    exact h
  · rw [hl] at h ⊢
    exact h

theorem spec_readFissionsLayered (f : Boolf) : Spec f (readFissionsLayered f) f.fissionsLayered := by
  refine spec_work (fun _ _ _ hv => by cases hv) ?_
  have h := spec_fst Prod.snd (spec_fissionsWork f)
  have e : f.fissionsLayered = (f.fissions >>= fun main =>
    (main.mapM fun p : Binv × Binv => do return (← flatToLayered (ints p.1), ← flatToLayered (ints p.2)) : Except Err _) >>= fun layered => .ok (main, layered)) >>= fun x => .ok x.2 := by
    unfold Boolf.fissionsLayered
    rw [bind_assoc]
    congr 1
    funext main
    rw [bind_assoc]
    exact (bind_pure _).symm
  rw [e]
  exact h

theorem spec_weightWork (f : Boolf) : Spec f (weightWork f) (f.fissionsLayered >>= fun layered =>
    .ok ((layered.map fun p => (p.1.map List.sum, p.2.map List.sum)).map fun p => (p.1.sum, p.2.sum), layered.map fun p => (p.1.map List.sum, p.2.map List.sum))) :=
  spec_bind (spec_readFissionsLayered f) fun _ _ => spec_pure f _

theorem spec_readFissionsWeight (f : Boolf) : Spec f (readFissionsWeight f) f.fissionsWeight := by
  refine spec_work (fun _ _ _ hv => by cases hv) ?_
  have h := spec_fst Prod.fst (spec_weightWork f)
  have e : f.fissionsWeight = (f.fissionsLayered >>= fun layered =>
    .ok ((layered.map fun p => (p.1.map List.sum, p.2.map List.sum)).map fun p => (p.1.sum, p.2.sum), layered.map fun p => (p.1.map List.sum, p.2.map List.sum))) >>= fun x => .ok x.1 := by
    unfold Boolf.fissionsWeight Boolf.fissionsWeightLayered
    cases f.fissionsLayered <;> rfl
  rw [e]
  exact h

theorem spec_readFissionsWeightLayered (f : Boolf) : Spec f (readFissionsWeightLayered f) f.fissionsWeightLayered := by
  refine spec_work (fun _ _ _ hv => by cases hv) ?_
  have h := spec_fst Prod.snd (spec_weightWork f)
  have e : f.fissionsWeightLayered = (f.fissionsLayered >>= fun layered =>
    .ok ((layered.map fun p => (p.1.map List.sum, p.2.map List.sum)).map fun p => (p.1.sum, p.2.sum), layered.map fun p => (p.1.map List.sum, p.2.map List.sum))) >>= fun x => .ok x.2 := by
    unfold Boolf.fissionsWeightLayered
    cases f.fissionsLayered <;> rfl
  rw [e]
  exact h

/-! ## spectra -/

/-- the results of the function that computes the spectra, one by one -/
theorem spec_spectraWork {f : Boolf} (hf : Obj f) : ∃ W, Spec f (spectraWork f) W ∧ (W >>= fun r => .ok r.flat) = f.fissionWalshSpectra ∧
    (W >>= fun r => .ok r.flatAbs) = f.fissionWalshSpectraAbs ∧ (W >>= fun r => .ok r.layered) = f.fissionWalshSpectraLayered ∧
    (W >>= fun r => .ok r.layeredAbs) = f.fissionWalshSpectraLayeredAbs := by
  rcases Nat.eq_zero_or_pos f.adicity with h0 | h0
  · have e := ((C91_single f hf).1 h0).1
    refine ⟨.error .assertion, ?_, ?_, ?_, ?_, ?_⟩
    · have h := spec_readFissions hf
      rw [e] at h
      exact spec_bind (W := fun _ => .error .assertion) h fun a ha => by cases ha
    · unfold Boolf.fissionWalshSpectra; rw [e]; rfl
    · unfold Boolf.fissionWalshSpectraAbs Boolf.fissionWalshSpectra; rw [e]; rfl
    · unfold Boolf.fissionWalshSpectraLayered Boolf.fissionWalshSpectra; rw [e]; rfl
    · unfold Boolf.fissionWalshSpectraLayeredAbs Boolf.fissionWalshSpectraAbs Boolf.fissionWalshSpectra; rw [e]; rfl
  · obtain ⟨l, hl, _⟩ := C91_fissions f hf h0
    obtain ⟨s, a, sl, al, z, za, hs, ha, hsl, hal, _⟩ := C92_single_spectra f hf h0
    have hs' : l.map (fun p => (fwht (ints p.1), fwht (ints p.2))) = s := by
      have := hs
      unfold Boolf.fissionWalshSpectra at this
      rw [hl] at this
      exact Except.ok.inj this
    have ha' : s.map (fun p => (absAll p.1, absAll p.2)) = a := by
      have := ha
      unfold Boolf.fissionWalshSpectraAbs at this
      rw [hs] at this
      exact Except.ok.inj this
    have hsl' : (s.mapM fun p : List Int × List Int => do return (← flatToLayered p.1, ← flatToLayered p.2) : Except Err _) = .ok sl := by
      have := hsl
      unfold Boolf.fissionWalshSpectraLayered at this
      rw [hs] at this
      exact this
    have hal' : (a.mapM fun p : List Int × List Int => do return (← flatToLayered p.1, ← flatToLayered p.2) : Except Err _) = .ok al := by
      have := hal
      unfold Boolf.fissionWalshSpectraLayeredAbs at this
      rw [ha] at this
      exact this
    refine ⟨.ok ⟨s, a, sl, al⟩, ?_, hs.symm, ha.symm, hsl.symm, hal.symm⟩
    have h1 : Spec f (spectraWork f) (Except.ok l >>= fun _ => .ok ⟨s, a, sl, al⟩) := by
      have h := spec_readFissions hf
      rw [hl] at h
      refine spec_bind h fun l' hl' => ?_
      cases hl'
      show Spec f (lift _ >>= fun layered => lift _ >>= fun layeredAbs => _) _
      rw [hs', ha', hsl', hal']
      intro st hst
      refine ⟨rfl, ?_, fun _ _ => trivial⟩
      exact { hst with
        spectra := fun v hv => by cases hv; exact hs
        spectraAbs := fun v hv => by cases hv; exact ha
        spectraLayered := fun v hv => by cases hv; exact hsl
        spectraLayeredAbs := fun v hv => by cases hv; exact hal }
    exact h1

theorem spec_readSpectra {f : Boolf} (hf : Obj f) : Spec f (readSpectra f) f.fissionWalshSpectra := by
  obtain ⟨W, h, e1, _⟩ := spec_spectraWork hf
  refine spec_work (fun _ hs => hs.spectra) ?_
  rw [← e1]
  exact spec_fst Spectra.flat h

theorem spec_readSpectraAbs {f : Boolf} (hf : Obj f) : Spec f (readSpectraAbs f) f.fissionWalshSpectraAbs := by
  obtain ⟨W, h, _, e1, _⟩ := spec_spectraWork hf
  refine spec_work (fun _ hs => hs.spectraAbs) ?_
  rw [← e1]
  exact spec_fst Spectra.flatAbs h

theorem spec_readSpectraLayered {f : Boolf} (hf : Obj f) : Spec f (readSpectraLayered f) f.fissionWalshSpectraLayered := by
  obtain ⟨W, h, _, _, e1, _⟩ := spec_spectraWork hf
  refine spec_work (fun _ hs => hs.spectraLayered) ?_
  rw [← e1]
  exact spec_fst Spectra.layered h

theorem spec_readSpectraLayeredAbs {f : Boolf} (hf : Obj f) : Spec f (readSpectraLayeredAbs f) f.fissionWalshSpectraLayeredAbs := by
  obtain ⟨W, h, _, _, _, e1⟩ := spec_spectraWork hf
  refine spec_work (fun _ hs => hs.spectraLayeredAbs) ?_
  rw [← e1]
  exact spec_fst Spectra.layeredAbs h

theorem spec_zippedLoop {f : Boolf} (hf : Obj f) (atompatterns : List Binv) : ∀ l : List Nat, Spec f (zippedLoop f atompatterns l) (l.mapM fun i : Nat => do
    match atompatterns[i]?, (← f.fissionWalshSpectra)[i]? with
    | some atompattern, some (a, b) => vectorZipTogether [a, b] (atompattern.vector.map Bool.toNat)
    | _, _ => .error .indexError)
  | [] => by rw [List.mapM_nil]; exact spec_pure f _
  | i :: l => by
    rw [List.mapM_cons, bind_assoc]
    refine spec_bind (spec_readSpectra hf) fun s _ => ?_
    exact spec_bind (spec_lift f _) fun z _ => spec_bind (spec_zippedLoop hf atompatterns l) fun r _ => spec_pure f _

theorem spec_zippedWork {f : Boolf} (hf : Obj f) : Spec f (zippedWork f) (f.fissionWalshSpectraZipped >>= fun signed => .ok (signed, signed.map absAll)) := by
  unfold Boolf.fissionWalshSpectraZipped
  rw [bind_assoc]
  exact spec_bind (spec_lift f _) fun a _ => spec_bind (spec_zippedLoop hf a _) fun r _ => spec_pure f _

theorem spec_readZipped {f : Boolf} (hf : Obj f) : Spec f (readZipped f) f.fissionWalshSpectraZipped := by
  refine spec_work (fun _ _ _ hv => by cases hv) ?_
  have h := spec_fst Prod.fst (spec_zippedWork hf)
  have e : (f.fissionWalshSpectraZipped >>= fun signed => .ok (signed, signed.map absAll) : Except Err (List (List Int) × List (List Int))) >>= (fun x => .ok x.1) = f.fissionWalshSpectraZipped := by
    cases f.fissionWalshSpectraZipped <;> rfl
  rw [e] at h
  exact h

theorem spec_readAbsZipped {f : Boolf} (hf : Obj f) : Spec f (readAbsZipped f) f.fissionWalshSpectraAbsZipped := by
  refine spec_work (fun _ _ _ hv => by cases hv) ?_
  have h := spec_fst Prod.snd (spec_zippedWork hf)
  have e : (f.fissionWalshSpectraZipped >>= fun signed => .ok (signed, signed.map absAll) : Except Err (List (List Int) × List (List Int))) >>= (fun x => .ok x.2) = f.fissionWalshSpectraAbsZipped := by
    unfold Boolf.fissionWalshSpectraAbsZipped
    cases f.fissionWalshSpectraZipped <;> rfl
  rw [e] at h
  exact h

/-! ## every history -/

theorem spec_readAttr {f : Boolf} (hf : Obj f) (a : Attr) : Spec f (readAttr f a) (f.value a) := by
  cases a
  case layeredTT => exact spec_readLayeredTT f
  case layeredWeight => exact spec_readLayeredWeight f
  case byWeight => exact spec_readByWeight f
  case layeredFullspots => exact spec_readLayeredFullspots f
  case weights => exact spec_readWeights f
  case links => exact spec_readLinks f
  case linkCount => exact spec_readLinkCount f
  case splitsEqual => exact spec_readSplitsEqual f
  case splitsOnesided => exact spec_readSplitsOnesided f
  case onesidedAtomkeys => exact spec_readOnesidedAtomkeys f
  case bloat => exact spec_readBloat f
  case equalityBlocks => exact spec_readEqualityBlocks f
  case preferredSides => exact spec_readPreferredSides f
  case fissions => exact spec_readFissions hf
  case fissionsLayered => exact spec_readFissionsLayered f
  case fissionsWeight => exact spec_readFissionsWeight f
  case fissionsWeightLayered => exact spec_readFissionsWeightLayered f
  case spectra => exact spec_readSpectra hf
  case spectraAbs => exact spec_readSpectraAbs hf
  case spectraLayered => exact spec_readSpectraLayered hf
  case spectraLayeredAbs => exact spec_readSpectraLayeredAbs hf
  case zipped => exact spec_readZipped hf
  case absZipped => exact spec_readAbsZipped hf

/-- **C154.** Whatever attributes of a new object are read, in whatever order, and however often: each read gives the value of the attribute (or its exception), which is
a function of the object alone.  (The properties of these values are C88 to C92 and others.) -/
theorem C154_history (f : Boolf) (hf : Obj f) (attrs : List Attr) : readAll f attrs {} = attrs.map fun a => ⟨a, f.value a⟩ := by
  have h0 : LazyInv f {} := by constructor <;> intro v hv <;> cases hv
  suffices h : ∀ s, LazyInv f s → readAll f attrs s = attrs.map fun a => ⟨a, f.value a⟩ from h _ h0
  induction attrs with
  | nil => intro s _; rfl
  | cons a rest ih =>
    intro s hs
    obtain ⟨h1, h2, _⟩ := spec_readAttr hf a s hs
    unfold readAll
    rw [h1, ih _ h2]
    rfl

/-- **C154.** No read calls itself for ever: the functions that are called when a variable is not set do set it, or raise an exception. -/
theorem C154_set (f : Boolf) (hf : Obj f) (before : List Attr) (a : Attr) : ∃ v, (readAll f (before ++ [a, a]) {}).drop before.length = [⟨a, v⟩, ⟨a, v⟩] ∧ v = f.value a := by
  refine ⟨_, ?_, rfl⟩
  rw [C154_history f hf, List.map_append, List.drop_left' (by simp)]
  rfl

example : ∃ f, newTT (.list [0, 0, 0, 1, 1, 1, 1, 1]) = .ok f ∧ Obj f ∧ ({} : Lazy).spectraAbs = none ∧
    (readAttr f .spectra {}).2.spectraAbs = some [([2, 0, 2, 0], [3, 1, 1, 1]), ([2, 0, 2, 0], [3, 1, 1, 1]), ([1, 1, 1, 1], [4, 0, 0, 0])] ∧
    (readAttr f .layeredTT {}).2.layeredWeight = some [0, 1, 3, 1] := by
  have h : newTT (.list [0, 0, 0, 1, 1, 1, 1, 1]) =
      .ok { atomvals := [0, 1, 2], root := ⟨[false, false, false, true, true, true, true, true]⟩, adicity := 3, valency := 3 } := by decide
  refine ⟨_, h, (reach_newTT h).obj, rfl, ?_, ?_⟩
  · decide +kernel
  · decide +kernel

end Verif.BF
