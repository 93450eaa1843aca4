import Verif.Boolf.Props16
import Verif.SetPartComp.Props

/-!
# C83: bloat, blot and blight
-/

namespace Verif.BF
open Verif.Py Verif.BV Verif.P Verif.W Verif.SPC
open Verif.A hiding Mat

/-! ### entering facts -/

/-- enter the facts one after the other -/
def callAll : List Fact → SetPartComp → Except Err SetPartComp
  | [], s => .ok s
  | f :: rest, s => do callAll rest (← ret (call s f))

theorem callAll_spec {G : Fact → Prop} {s : SetPartComp} (h : SPC.Reach G s) (l : List Fact) (hp : ∀ f ∈ l, f.Proper)
    (v : Int → Bool) (hv : Models G v) (hl : ∀ f ∈ l, f.Holds v) :
    ∃ s', callAll l s = .ok s' ∧ SPC.Reach (fun g => G g ∨ g ∈ l) s' := by
  induction l generalizing G s with
  | nil =>
    refine ⟨s, rfl, ?_⟩
    have : (fun g => G g ∨ g ∈ ([] : List Fact)) = G := by funext g; simp
    rw [this]; exact h
  | cons f l ih =>
    obtain ⟨hi, hs⟩ := reach_inv h
    rcases call_spec hi f (hp f (by simp)) with ⟨_, t, e, _⟩ | ⟨hn, _⟩
    · have ht : SPC.Reach (fun g => G g ∨ g = f) t := SPC.Reach.accepted f h (hp f (by simp)) e
      obtain ⟨s', q1, q2⟩ := ih ht (fun g hg => hp g (by simp [hg]))
        (by rintro g (hg | rfl); exact hv g hg; exact hl g (by simp)) (fun g hg => hl g (by simp [hg]))
      refine ⟨s', ?_, ?_⟩
      · unfold callAll
        rw [e]
        exact q1
      · have : (fun g => G g ∨ g ∈ f :: l) = fun g => (G g ∨ g = f) ∨ g ∈ l := by
          funext g; rw [List.mem_cons, or_assoc]
        rw [this]; exact q2
    · exact absurd ⟨v, (hs v).2 hv, hl f (by simp)⟩ hn

/-! ### the facts -/

/-- the truth values of the atomkeys at a spot; the atomkey −1 is true -/
def spotVal (s : Nat) (z : Int) : Bool := if z < 0 then true else s.testBit z.toNat

@[simp] theorem spotVal_nat (s k : Nat) : spotVal s k = s.testBit k := by unfold spotVal; rw [if_neg (by omega)]; rfl

@[simp] theorem spotVal_neg (s : Nat) : spotVal s (-1) = true := rfl

/-- equal at all spots -/
def EqOn (F : List Nat) (a b : Int) : Prop := ∀ s ∈ F, spotVal s a = spotVal s b

/-- complementary at all spots -/
def NeOn (F : List Nat) (a b : Int) : Prop := ∀ s ∈ F, spotVal s a ≠ spotVal s b

theorem EqOn.symm {F : List Nat} {a b : Int} (h : EqOn F a b) : EqOn F b a := fun s hs => (h s hs).symm
theorem NeOn.symm {F : List Nat} {a b : Int} (h : NeOn F a b) : NeOn F b a := fun s hs => (h s hs).symm

theorem splitOf_eq_iff {F : List Nat} {a b : Nat} : splitOf F a = splitOf F b ↔ EqOn F a b := by
  unfold splitOf EqOn
  simp only [spotVal_nat, Prod.mk.injEq]
  constructor
  · rintro ⟨h1, h2⟩ s hs
    rw [Bool.eq_iff_iff]
    have h3 : s ∈ F.filter (fun s => s.testBit a) ↔ s ∈ F.filter (fun s => s.testBit b) := by rw [h1]
    simpa [hs] using h3
  · intro h
    exact ⟨List.filter_congr (fun s hs => by rw [h s hs]), List.filter_congr (fun s hs => by rw [h s hs])⟩

theorem related_iff {F : List Nat} {a b : Nat} : related F a b = true ↔ EqOn F a b ∨ NeOn F a b := by
  unfold related EqOn NeOn
  simp only [spotVal_nat]
  rw [Bool.or_eq_true, Bool.and_eq_true, Bool.and_eq_true]
  simp only [Bool.not_eq_true', ← Bool.not_eq_true, has_iff]
  push Not
  constructor
  · rintro (⟨h1, h2⟩ | ⟨h1, h2⟩)
    · left
      intro s hs
      have := h1 s hs; have := h2 s hs
      cases hx : s.testBit a <;> cases hy : s.testBit b <;> simp_all
    · right
      intro s hs
      have := h1 s hs; have := h2 s hs
      cases hx : s.testBit a <;> cases hy : s.testBit b <;> simp_all
  · rintro (h1 | h1)
    · left
      constructor <;> (intro s hs he; have := h1 s hs; simp_all)
    · right
      constructor <;> (intro s hs he; have := h1 s hs; simp_all)

theorem oneside_iff {F : List Nat} {a : Nat} : oneside F a = true ↔ EqOn F a (-1) ∨ NeOn F a (-1) := by
  unfold oneside EqOn NeOn
  simp only [spotVal_nat, spotVal_neg]
  rw [Bool.not_eq_true', ← Bool.not_eq_true, Bool.and_eq_true, has1_iff, has1_iff, not_and_or]
  push Not
  simp only [ne_eq, Bool.not_eq_true, Bool.not_eq_false]
  exact or_comm

/-- the fact entered for a pair of equal splits -/
def bloatFact (F : List Nat) (p : Nat × Nat) : Fact := if splitOf F p.1 = splitOf F p.2 then .eq p.1 p.2 else .comp p.1 p.2

/-- the fact entered for a onesided atom -/
def blotFact (F : List Nat) (k : Nat) : Fact := if (splitOf F k).1 = [] then .comp k (-1) else .eq k (-1)

def bloatFacts (F : List Nat) (n : Nat) : List Fact := ((pairsBelow n).filter fun p => related F p.1 p.2).map (bloatFact F)

def blotFacts (F : List Nat) (n : Nat) : List Fact := ((List.range n).filter (oneside F)).map (blotFact F)

theorem bloatLoop_eq (F : List Nat) (n : Nat) (l : List (Nat × Nat)) (hl : ∀ p ∈ l, p.1 < n ∧ p.2 < n) (s : SetPartComp) :
    bloatLoop ((List.range n).map (splitOf F)) (l.map fun p => (p, related F p.1 p.2)) s =
      callAll ((l.filter fun p => related F p.1 p.2).map (bloatFact F)) s := by
  induction l generalizing s with
  | nil => rfl
  | cons p l ih =>
    obtain ⟨a, b⟩ := p
    obtain ⟨ha, hb⟩ := hl (a, b) (by simp)
    simp only at ha hb
    rw [List.map_cons]
    unfold bloatLoop
    by_cases hr : related F a b = true
    · simp only [if_pos hr, item_splits F ha, item_splits F hb, bind, Except.bind]
      rw [List.filter_cons_of_pos (p := fun p : Nat × Nat => related F p.1 p.2) (a := (a, b)) hr, List.map_cons]
      unfold callAll
      have hc : call s (bloatFact F (a, b)) = if splitOf F a = splitOf F b then s.setEqual a b else s.setComp a b := by
        unfold bloatFact
        by_cases he : splitOf F a = splitOf F b
        · rw [if_pos he, if_pos he]; rfl
        · rw [if_neg he, if_neg he]; rfl
      rw [hc]
      simp only [bind, Except.bind]
      cases ret (if splitOf F a = splitOf F b then s.setEqual a b else s.setComp a b) with
      | error e => rfl
      | ok t => exact ih (fun p hp => hl p (by simp [hp])) t
    · simp only [if_neg hr]
      rw [List.filter_cons_of_neg (by simpa using hr)]
      exact ih (fun p hp => hl p (by simp [hp])) s

theorem blotLoop_eq (F : List Nat) (n : Nat) (l : List Nat) (hl : ∀ k ∈ l, k < n) (s : SetPartComp) :
    blotLoop ((List.range n).map (splitOf F)) l s = callAll (l.map (blotFact F)) s := by
  induction l generalizing s with
  | nil => rfl
  | cons k l ih =>
    rw [List.map_cons]
    unfold blotLoop callAll
    simp only [item_splits F (hl k (by simp)), bind, Except.bind]
    have hc : call s (blotFact F k) = if (splitOf F k).1 = [] then s.setComp k (-1) else s.setEqual k (-1) := by
      unfold blotFact
      by_cases he : (splitOf F k).1 = []
      · rw [if_pos he, if_pos he]; rfl
      · rw [if_neg he, if_neg he]; rfl
    rw [hc]
    cases ret (if (splitOf F k).1 = [] then s.setComp k (-1) else s.setEqual k (-1)) with
    | error e => rfl
    | ok t => exact ih (fun p hp => hl p (by simp [hp])) t

theorem mem_bloatFacts {F : List Nat} {n : Nat} {g : Fact} : g ∈ bloatFacts F n ↔
    ∃ a b : Nat, a < b ∧ b < n ∧ related F a b = true ∧ g = bloatFact F (a, b) := by
  unfold bloatFacts
  rw [List.mem_map]
  constructor
  · rintro ⟨⟨a, b⟩, hp, rfl⟩
    rw [List.mem_filter, mem_pairsBelow] at hp
    exact ⟨a, b, hp.1.1, hp.1.2, hp.2, rfl⟩
  · rintro ⟨a, b, h1, h2, h3, rfl⟩
    exact ⟨(a, b), List.mem_filter.2 ⟨mem_pairsBelow.2 ⟨h1, h2⟩, h3⟩, rfl⟩

theorem mem_blotFacts {F : List Nat} {n : Nat} {g : Fact} : g ∈ blotFacts F n ↔
    ∃ k < n, oneside F k = true ∧ g = blotFact F k := by
  unfold blotFacts
  rw [List.mem_map]
  constructor
  · rintro ⟨k, hp, rfl⟩
    rw [List.mem_filter, List.mem_range] at hp
    exact ⟨k, hp.1, hp.2, rfl⟩
  · rintro ⟨k, h1, h2, rfl⟩
    exact ⟨k, List.mem_filter.2 ⟨List.mem_range.2 h1, h2⟩, rfl⟩

theorem bloatFact_holds {F : List Nat} {a b : Nat} (hr : related F a b = true) (v : Int → Bool) (hF : F ≠ []) :
    (bloatFact F (a, b)).Holds v ↔ (EqOn F a b → v a = v b) ∧ (NeOn F a b → v a ≠ v b) := by
  unfold bloatFact
  obtain ⟨s, hs⟩ := List.exists_mem_of_ne_nil F hF
  by_cases he : EqOn F a b
  · rw [if_pos (splitOf_eq_iff.2 he)]
    have hn : ¬ NeOn F a b := fun h => h s hs (he s hs)
    simp [Fact.Holds, he, hn]
  · rw [if_neg (fun h => he (splitOf_eq_iff.1 h))]
    have hn : NeOn F a b := (related_iff.1 hr).resolve_left he
    simp [Fact.Holds, he, hn]

theorem side_nil_iff {F : List Nat} {k : Nat} : (splitOf F k).1 = [] ↔ NeOn F k (-1) := by
  unfold splitOf NeOn
  simp

theorem blotFact_holds {F : List Nat} {k : Nat} (hr : oneside F k = true) (v : Int → Bool) (hF : F ≠ []) :
    (blotFact F k).Holds v ↔ (EqOn F k (-1) → v k = v (-1)) ∧ (NeOn F k (-1) → v k ≠ v (-1)) := by
  unfold blotFact
  obtain ⟨s, hs⟩ := List.exists_mem_of_ne_nil F hF
  by_cases he : NeOn F k (-1)
  · rw [if_pos (side_nil_iff.2 he)]
    have hn : ¬ EqOn F k (-1) := fun h => he s hs (h s hs)
    simp [Fact.Holds, he, hn]
  · rw [if_neg (fun h => he (side_nil_iff.1 h))]
    have hn : EqOn F k (-1) := (oneside_iff.1 hr).resolve_right he
    simp [Fact.Holds, he, hn]

theorem models_bloat {F : List Nat} (hF : F ≠ []) (n : Nat) (v : Int → Bool) :
    Models (· ∈ bloatFacts F n) v ↔ ∀ a b : Nat, a < n → b < n → (EqOn F a b → v a = v b) ∧ (NeOn F a b → v a ≠ v b) := by
  constructor
  · intro h
    have key : ∀ a b : Nat, a < b → b < n → (EqOn F a b → v a = v b) ∧ (NeOn F a b → v a ≠ v b) := by
      intro a b hab hb
      by_cases hr : related F a b = true
      · exact (bloatFact_holds hr v hF).1 (h _ (mem_bloatFacts.2 ⟨a, b, hab, hb, hr, rfl⟩))
      · rw [related_iff] at hr
        push Not at hr
        exact ⟨fun he => absurd he hr.1, fun he => absurd he hr.2⟩
    intro a b ha hb
    rcases lt_trichotomy a b with hab | rfl | hab
    · exact key a b hab hb
    · refine ⟨fun _ => rfl, fun hn => ?_⟩
      obtain ⟨s, hs⟩ := List.exists_mem_of_ne_nil F hF
      exact absurd rfl (hn s hs)
    · obtain ⟨k1, k2⟩ := key b a hab ha
      exact ⟨fun h => (k1 h.symm).symm, fun h => (k2 h.symm).symm⟩
  · intro h g hg
    obtain ⟨a, b, hab, hb, hr, rfl⟩ := mem_bloatFacts.1 hg
    exact (bloatFact_holds hr v hF).2 (h a b (by omega) hb)

theorem models_blot {F : List Nat} (hF : F ≠ []) (n : Nat) (v : Int → Bool) :
    Models (· ∈ blotFacts F n) v ↔ ∀ k < n, (EqOn F k (-1) → v k = v (-1)) ∧ (NeOn F k (-1) → v k ≠ v (-1)) := by
  constructor
  · intro h k hk
    by_cases hr : oneside F k = true
    · exact (blotFact_holds hr v hF).1 (h _ (mem_blotFacts.2 ⟨k, hk, hr, rfl⟩))
    · rw [oneside_iff] at hr
      push Not at hr
      exact ⟨fun he => absurd he hr.1, fun he => absurd he hr.2⟩
  · intro h g hg
    obtain ⟨k, hk, hr, rfl⟩ := mem_blotFacts.1 hg
    exact (blotFact_holds hr v hF).2 (h k hk)

theorem models_spot {F : List Nat} {s : Nat} (hs : s ∈ F) (n : Nat) :
    Models (· ∈ bloatFacts F n) (spotVal s) ∧ Models (· ∈ blotFacts F n) (spotVal s) := by
  have hF : F ≠ [] := List.ne_nil_of_mem hs
  rw [models_bloat hF, models_blot hF]
  exact ⟨fun a b _ _ => ⟨fun h => h s hs, fun h => h s hs⟩, fun k _ => ⟨fun h => h s hs, fun h => h s hs⟩⟩

theorem bloatFacts_proper {F : List Nat} {n : Nat} {g : Fact} (hg : g ∈ bloatFacts F n) : g.Proper := by
  obtain ⟨a, b, hab, _, _, rfl⟩ := mem_bloatFacts.1 hg
  unfold bloatFact
  split
  · show (a : Int) ≠ b; omega
  · show (a : Int) ≠ b; omega

theorem blotFacts_proper {F : List Nat} {n : Nat} {g : Fact} (hg : g ∈ blotFacts F n) : g.Proper := by
  obtain ⟨k, _, _, rfl⟩ := mem_blotFacts.1 hg
  unfold blotFact
  split
  · show (k : Int) ≠ -1; omega
  · show (k : Int) ≠ -1; omega

theorem new_empty_ok : ∃ s, SPC.new none none = .ok s := ⟨_, rfl⟩

/-- some full spot, or no atoms at all -/
theorem spot_or_none {f : Boolf} (h : Canon f) : f.valency = 0 ∨ ∃ s, s ∈ f.fullspots := by
  by_cases h0 : f.atomvals = []
  · left; rw [h.val, h0]; rfl
  · exact Or.inr (List.exists_mem_of_ne_nil _ (fullspots_ne_nil h h0))

theorem bloat_reach {f : Boolf} (h : Canon f) :
    ∃ s, f.bloat = .ok s ∧ SPC.Reach (· ∈ bloatFacts f.fullspots f.valency) s := by
  obtain ⟨s0, e0⟩ := new_empty_ok
  have h0 := SPC.Reach.empty e0
  have hv : ∃ v, ∀ g ∈ bloatFacts f.fullspots f.valency, g.Holds v := by
    rcases spot_or_none h with hz | ⟨s, hs⟩
    · rw [hz]; exact ⟨fun _ => true, by intro g hg; cases hg⟩
    · exact ⟨spotVal s, (models_spot hs _).1⟩
  obtain ⟨v, hv⟩ := hv
  obtain ⟨s', q1, q2⟩ := callAll_spec h0 (bloatFacts f.fullspots f.valency) (fun g hg => bloatFacts_proper hg) v (fun g hg => hg.elim) hv
  refine ⟨s', ?_, by simpa using q2⟩
  unfold Boolf.bloat Boolf.splitsEqual
  rw [splits_eq h.toSound, splitsEqualAndOnesided_eq h, e0]
  simp only [bind, Except.bind, pure, Except.pure]
  rw [bloatLoop_eq _ _ _ (by rintro ⟨a, b⟩ hp; rw [mem_pairsBelow] at hp; simp only; omega)]
  exact q1

theorem blot_reach {f : Boolf} (h : Canon f) :
    ∃ s, f.blot = .ok s ∧ SPC.Reach (· ∈ blotFacts f.fullspots f.valency) s := by
  obtain ⟨s0, e0⟩ := new_empty_ok
  have h0 := SPC.Reach.empty e0
  have hv : ∃ v, ∀ g ∈ blotFacts f.fullspots f.valency, g.Holds v := by
    rcases spot_or_none h with hz | ⟨s, hs⟩
    · rw [hz]; exact ⟨fun _ => true, by intro g hg; cases hg⟩
    · exact ⟨spotVal s, (models_spot hs _).2⟩
  obtain ⟨v, hv⟩ := hv
  obtain ⟨s', q1, q2⟩ := callAll_spec h0 (blotFacts f.fullspots f.valency) (fun g hg => blotFacts_proper hg) v (fun g hg => hg.elim) hv
  refine ⟨s', ?_, by simpa using q2⟩
  unfold Boolf.blot
  rw [splits_eq h.toSound, onesidedAtomkeys_eq h, e0]
  simp only [bind, Except.bind]
  rw [blotLoop_eq _ _ _ (by intro k hk; exact List.mem_range.1 (List.mem_filter.1 hk).1)]
  exact q1

theorem blight_reach {f : Boolf} (h : Canon f) :
    ∃ s, f.blight = .ok s ∧ SPC.Reach (fun g => g ∈ bloatFacts f.fullspots f.valency ∨ g ∈ blotFacts f.fullspots f.valency) s := by
  obtain ⟨s0, e0, h0⟩ := bloat_reach h
  have hv : ∃ v, Models (· ∈ bloatFacts f.fullspots f.valency) v ∧ ∀ g ∈ blotFacts f.fullspots f.valency, g.Holds v := by
    rcases spot_or_none h with hz | ⟨s, hs⟩
    · rw [hz]; exact ⟨fun _ => true, (by intro g hg; cases hg), by intro g hg; cases hg⟩
    · exact ⟨spotVal s, models_spot hs _⟩
  obtain ⟨v, hv, hv'⟩ := hv
  obtain ⟨s', q1, q2⟩ := callAll_spec h0 (blotFacts f.fullspots f.valency) (fun g hg => blotFacts_proper hg) v hv hv'
  refine ⟨s', ?_, q2⟩
  unfold Boolf.blight
  rw [splits_eq h.toSound, onesidedAtomkeys_eq h, e0]
  simp only [bind, Except.bind]
  rw [blotLoop_eq _ _ _ (by intro k hk; exact List.mem_range.1 (List.mem_filter.1 hk).1)]
  exact q1

/-! ### what follows -/

theorem no_facts (F : List Nat) : bloatFacts F 0 = [] ∧ blotFacts F 0 = [] := ⟨rfl, rfl⟩

/-- change one truth value -/
def flipAt (z : Int) (v : Int → Bool) : Int → Bool := fun x => if x = z then !v x else v x

theorem flipAt_of_ne {z x : Int} (h : x ≠ z) (v : Int → Bool) : flipAt z v x = v x := by unfold flipAt; rw [if_neg h]
theorem flipAt_self (z : Int) (v : Int → Bool) : flipAt z v z = !v z := by unfold flipAt; rw [if_pos rfl]

/-- nothing follows about an element without facts -/
theorem no_info {G : Fact → Prop} {s : SetPartComp} (h : SPC.Reach G s) {z : Int} (hz : ∀ v, Models G v → Models G (flipAt z v)) {b : Int} (hb : b ≠ z) :
    s.areEqual z b = false ∧ s.areEqual b z = false ∧ s.areComp z b = false ∧ s.areComp b z = false := by
  obtain ⟨⟨v, hv⟩, c1, c2⟩ := C45_consequences G s h
  refine ⟨?_, ?_, ?_, ?_⟩
  · rw [← Bool.not_eq_true, c1 z b hb.symm]
    intro hall
    have h1 := hall v hv
    have h2 := hall _ (hz v hv)
    rw [flipAt_self, flipAt_of_ne hb, h1] at h2
    simp at h2
  · rw [← Bool.not_eq_true, c1 b z hb]
    intro hall
    have h1 := hall v hv
    have h2 := hall _ (hz v hv)
    rw [flipAt_self, flipAt_of_ne hb, h1] at h2
    simp at h2
  · rw [← Bool.not_eq_true, c2 z b]
    intro hall
    have h1 := hall v hv
    have h2 := hall _ (hz v hv)
    rw [flipAt_self, flipAt_of_ne hb] at h2
    cases hz : v z <;> cases hb : v b <;> simp_all
  · rw [← Bool.not_eq_true, c2 b z]
    intro hall
    have h1 := hall v hv
    have h2 := hall _ (hz v hv)
    rw [flipAt_self, flipAt_of_ne hb] at h2
    cases hz : v z <;> cases hb : v b <;> simp_all

theorem Holds_congr {g : Fact} {v w : Int → Bool} (hp : ∀ a b, g = .eq a b ∨ g = .comp a b → v a = w a ∧ v b = w b) (h : g.Holds v) : g.Holds w := by
  cases g with
  | eq a b => obtain ⟨h1, h2⟩ := hp a b (Or.inl rfl); show w a = w b; rw [← h1, ← h2]; exact h
  | comp a b => obtain ⟨h1, h2⟩ := hp a b (Or.inr rfl); show w a ≠ w b; rw [← h1, ← h2]; exact h

theorem bloat_flip {F : List Nat} {n : Nat} {z : Int} (hz : z < 0 ∨ (n : Int) ≤ z) (v : Int → Bool) (h : Models (· ∈ bloatFacts F n) v) :
    Models (· ∈ bloatFacts F n) (flipAt z v) := by
  intro g hg
  refine Holds_congr ?_ (h g hg)
  obtain ⟨a, b, hab, hb, _, rfl⟩ := mem_bloatFacts.1 hg
  have hval : ∀ x : Nat, x < n → v x = flipAt z v x := fun x hx => (flipAt_of_ne (by omega) v).symm
  intro c d hcd
  unfold bloatFact at hcd
  split at hcd
  · rcases hcd with hcd | hcd <;> cases hcd
    exact ⟨hval a (by omega), hval b hb⟩
  · rcases hcd with hcd | hcd <;> cases hcd
    exact ⟨hval a (by omega), hval b hb⟩

theorem blot_flip {F : List Nat} {n : Nat} {z : Int} (hz : z < -1 ∨ (n : Int) ≤ z ∨ ∃ k : Nat, z = k ∧ oneside F k = false) (v : Int → Bool)
    (h : Models (· ∈ blotFacts F n) v) : Models (· ∈ blotFacts F n) (flipAt z v) := by
  intro g hg
  refine Holds_congr ?_ (h g hg)
  obtain ⟨k, hk, ho, rfl⟩ := mem_blotFacts.1 hg
  have hne : (k : Int) ≠ z ∧ (-1 : Int) ≠ z := by
    rcases hz with hz | hz | ⟨j, rfl, hj⟩
    · omega
    · omega
    · refine ⟨?_, by omega⟩
      intro hc
      obtain rfl : k = j := by omega
      rw [ho] at hj; cases hj
  intro c d hcd
  unfold blotFact at hcd
  split at hcd
  · rcases hcd with hcd | hcd <;> cases hcd
    exact ⟨(flipAt_of_ne hne.1 v).symm, (flipAt_of_ne hne.2 v).symm⟩
  · rcases hcd with hcd | hcd <;> cases hcd
    exact ⟨(flipAt_of_ne hne.1 v).symm, (flipAt_of_ne hne.2 v).symm⟩

theorem bloat_sem {F : List Nat} {n : Nat} {s : SetPartComp} (hF : F ≠ []) (h : SPC.Reach (· ∈ bloatFacts F n) s) {a b : Nat} (ha : a < n) (hb : b < n) :
    (a ≠ b → (s.areEqual a b = true ↔ EqOn F a b)) ∧ (s.areComp a b = true ↔ NeOn F a b) := by
  obtain ⟨_, c1, c2⟩ := C45_consequences _ s h
  constructor
  · intro hab
    rw [c1 a b (by omega)]
    constructor
    · intro hall t ht
      exact hall _ (models_spot ht n).1
    · intro he v hv
      exact ((models_bloat hF n v).1 hv a b ha hb).1 he
  · rw [c2 a b]
    constructor
    · intro hall t ht
      exact hall _ (models_spot ht n).1
    · intro he v hv
      exact ((models_bloat hF n v).1 hv a b ha hb).2 he

theorem eqOn_key {f : Boolf} (h : Sound f) {a b x y : Nat} (ha : f.atomvals[a]? = some x) (hb : f.atomvals[b]? = some y) :
    (EqOn f.fullspots a b ↔ ∀ key : Nat, f.getItem key = .ok true → key.testBit x = key.testBit y) ∧
    (NeOn f.fullspots a b ↔ ∀ key : Nat, f.getItem key = .ok true → key.testBit x ≠ key.testBit y) := by
  unfold EqOn NeOn
  simp only [spotVal_nat]
  constructor <;> constructor
  · intro h1 key hk
    obtain ⟨s, hs, h2⟩ := key_spot h hk
    rw [← h2 a x ha, ← h2 b y hb]; exact h1 s hs
  · intro h1 s hs
    obtain ⟨key, hk, h2⟩ := spot_key h hs
    rw [← h2 a x ha, ← h2 b y hb]; exact h1 key hk
  · intro h1 key hk
    obtain ⟨s, hs, h2⟩ := key_spot h hk
    rw [← h2 a x ha, ← h2 b y hb]; exact h1 s hs
  · intro h1 s hs
    obtain ⟨key, hk, h2⟩ := spot_key h hs
    rw [← h2 a x ha, ← h2 b y hb]; exact h1 key hk

theorem eqOn_key1 {f : Boolf} (h : Sound f) {a x : Nat} (ha : f.atomvals[a]? = some x) :
    (EqOn f.fullspots a (-1) ↔ ∀ key : Nat, f.getItem key = .ok true → key.testBit x = true) ∧
    (NeOn f.fullspots a (-1) ↔ ∀ key : Nat, f.getItem key = .ok true → key.testBit x = false) := by
  unfold EqOn NeOn
  simp only [spotVal_nat, spotVal_neg]
  constructor <;> constructor
  · intro h1 key hk
    obtain ⟨s, hs, h2⟩ := key_spot h hk
    rw [← h2 a x ha]; exact h1 s hs
  · intro h1 s hs
    obtain ⟨key, hk, h2⟩ := spot_key h hs
    rw [← h2 a x ha]; exact h1 key hk
  · intro h1 key hk
    obtain ⟨s, hs, h2⟩ := key_spot h hk
    rw [← h2 a x ha]; simpa using h1 s hs
  · intro h1 s hs
    obtain ⟨key, hk, h2⟩ := spot_key h hs
    rw [← h2 a x ha]; simpa using h1 key hk

/-- an atom at some position means there are spots -/
theorem spots_of_atom {f : Boolf} (h : Canon f) {a x : Nat} (ha : f.atomvals[a]? = some x) : f.fullspots ≠ [] :=
  fullspots_ne_nil h (List.ne_nil_of_mem (List.mem_of_getElem? ha))

/-- **C83.** `bloat` is always computed.  Two atoms are equal (complementary) in it iff they are so wherever the function is true.
It says nothing about other elements. -/
theorem C83_bloat (f : Boolf) (hf : Reach f) : ∃ s, f.bloat = .ok s ∧
    (∀ a b x y : Nat, a ≠ b → f.atomvals[a]? = some x → f.atomvals[b]? = some y →
      (s.areEqual a b = true ↔ ∀ key : Nat, f.getItem key = .ok true → key.testBit x = key.testBit y) ∧
      (s.areComp a b = true ↔ ∀ key : Nat, f.getItem key = .ok true → key.testBit x ≠ key.testBit y)) ∧
    ∀ z b : Int, z < 0 ∨ (f.valency : Int) ≤ z → b ≠ z →
      s.areEqual z b = false ∧ s.areEqual b z = false ∧ s.areComp z b = false ∧ s.areComp b z = false := by
  have h := hf.canon
  obtain ⟨s, s1, s2⟩ := bloat_reach h
  refine ⟨s, s1, fun a b x y hab ha hb => ?_, fun z b hz hb => no_info s2 (fun v hv => bloat_flip hz v hv) hb⟩
  obtain ⟨k1, k2⟩ := eqOn_key h.toSound ha hb
  rw [← k1, ← k2]
  have hl : ∀ {k x : Nat}, f.atomvals[k]? = some x → k < f.valency := fun hk => by rw [h.val]; exact getElem?_some_lt hk
  have := bloat_sem (spots_of_atom h ha) s2 (hl ha) (hl hb)
  exact ⟨this.1 hab, this.2⟩

/-- **C83.** `blot` is always computed.  An atom is equal (complementary) to −1 in it iff it is true (false) wherever the function is true.  Two atoms are equal
(complementary) iff both have only one value there, and these values are equal (different). -/
theorem C83_blot (f : Boolf) (hf : Reach f) : ∃ s, f.blot = .ok s ∧
    (∀ a x : Nat, f.atomvals[a]? = some x →
      (s.areEqual a (-1) = true ↔ ∀ key : Nat, f.getItem key = .ok true → key.testBit x = true) ∧
      (s.areComp a (-1) = true ↔ ∀ key : Nat, f.getItem key = .ok true → key.testBit x = false)) ∧
    (∀ a b x y : Nat, a ≠ b → f.atomvals[a]? = some x → f.atomvals[b]? = some y →
      (s.areEqual a b = true ↔ ∃ c : Bool, ∀ key : Nat, f.getItem key = .ok true → key.testBit x = c ∧ key.testBit y = c) ∧
      (s.areComp a b = true ↔ ∃ c : Bool, ∀ key : Nat, f.getItem key = .ok true → key.testBit x = c ∧ key.testBit y = !c)) ∧
    ∀ z b : Int, z < -1 ∨ (f.valency : Int) ≤ z → b ≠ z →
      s.areEqual z b = false ∧ s.areEqual b z = false ∧ s.areComp z b = false ∧ s.areComp b z = false := by
  have h := hf.canon
  obtain ⟨s, s1, s2⟩ := blot_reach h
  obtain ⟨_, c1, c2⟩ := C45_consequences _ s s2
  have hl : ∀ {k x : Nat}, f.atomvals[k]? = some x → k < f.valency := fun hk => by rw [h.val]; exact getElem?_some_lt hk
  refine ⟨s, s1, fun a x ha => ?_, fun a b x y hab ha hb => ?_, fun z b hz hb => no_info s2 (fun v hv => blot_flip (by tauto) v hv) hb⟩
  · obtain ⟨k1, k2⟩ := eqOn_key1 h.toSound ha
    have hF := spots_of_atom h ha
    rw [← k1, ← k2, c1 _ _ (by omega), c2]
    constructor <;> constructor
    · intro hall t ht; exact hall _ (models_spot ht _).2
    · intro he v hv; exact ((models_blot hF _ v).1 hv a (hl ha)).1 he
    · intro hall t ht; exact hall _ (models_spot ht _).2
    · intro he v hv; exact ((models_blot hF _ v).1 hv a (hl ha)).2 he
  · have hF := spots_of_atom h ha
    obtain ⟨ka1, ka2⟩ := eqOn_key1 h.toSound ha
    obtain ⟨kb1, kb2⟩ := eqOn_key1 h.toSound hb
    obtain ⟨s0, hs0⟩ := List.exists_mem_of_ne_nil _ hF
    have uni : ∀ {k x : Nat} (_ : f.atomvals[k]? = some x) (c : Bool), (∀ key : Nat, f.getItem key = .ok true → key.testBit x = c) →
        ∀ v, Models (· ∈ blotFacts f.fullspots f.valency) v → v k = (v (-1) == c) := by
      intro k x hk c hc v hv
      obtain ⟨kk1, kk2⟩ := eqOn_key1 h.toSound hk
      obtain ⟨m1, m2⟩ := (models_blot hF _ v).1 hv k (hl hk)
      cases c
      · have := m2 (kk2.2 hc)
        cases h1 : v k <;> cases h2 : v (-1) <;> simp_all
      · have := m1 (kk1.2 hc)
        rw [this]; simp
    have side : ∀ {k x : Nat} (_ : f.atomvals[k]? = some x), oneside f.fullspots k = true → ∃ c : Bool, ∀ key : Nat, f.getItem key = .ok true → key.testBit x = c := by
      intro k x hk ho
      rcases (oneside_key h.toSound hk).1 ho with h1 | h1
      · exact ⟨true, h1⟩
      · exact ⟨false, h1⟩
    have info : (s.areEqual a b = true ∨ s.areComp a b = true) → oneside f.fullspots a = true ∧ oneside f.fullspots b = true := by
      intro hor
      constructor
      · by_contra hc
        rw [Bool.not_eq_true] at hc
        obtain ⟨i1, _, i3, _⟩ := no_info s2 (z := a) (fun v hv => blot_flip (Or.inr (Or.inr ⟨a, rfl, hc⟩)) v hv) (b := b) (by omega)
        rw [i1, i3] at hor; simp at hor
      · by_contra hc
        rw [Bool.not_eq_true] at hc
        obtain ⟨_, i1, _, i3⟩ := no_info s2 (z := b) (fun v hv => blot_flip (Or.inr (Or.inr ⟨b, rfl, hc⟩)) v hv) (b := a) (by omega)
        rw [i1, i3] at hor; simp at hor
    constructor <;> constructor
    · intro he
      obtain ⟨oa, ob⟩ := info (Or.inl he)
      obtain ⟨ca, hca⟩ := side ha oa
      obtain ⟨cb, hcb⟩ := side hb ob
      have hm := (models_spot hs0 f.valency).2
      have := (c1 a b (by omega)).1 he _ hm
      rw [uni ha ca hca _ hm, uni hb cb hcb _ hm, spotVal_neg] at this
      have : ca = cb := by revert this; cases ca <;> cases cb <;> simp
      subst this
      exact ⟨ca, fun key hk => ⟨hca key hk, hcb key hk⟩⟩
    · rintro ⟨c, hc⟩
      rw [c1 a b (by omega)]
      intro v hv
      rw [uni ha c (fun k hk => (hc k hk).1) v hv, uni hb c (fun k hk => (hc k hk).2) v hv]
    · intro he
      obtain ⟨oa, ob⟩ := info (Or.inr he)
      obtain ⟨ca, hca⟩ := side ha oa
      obtain ⟨cb, hcb⟩ := side hb ob
      have hm := (models_spot hs0 f.valency).2
      have := (c2 a b).1 he _ hm
      rw [uni ha ca hca _ hm, uni hb cb hcb _ hm, spotVal_neg] at this
      have : cb = !ca := by revert this; cases ca <;> cases cb <;> simp
      subst this
      exact ⟨ca, fun key hk => ⟨hca key hk, hcb key hk⟩⟩
    · rintro ⟨c, hc⟩
      rw [c2 a b]
      intro v hv
      rw [uni ha c (fun k hk => (hc k hk).1) v hv, uni hb (!c) (fun k hk => (hc k hk).2) v hv]
      cases c <;> cases v (-1) <;> simp

/-- **C83.** `blight` is always computed, and joins `bloat` and `blot`: two atoms are equal (complementary) in it iff they are so wherever the function is true, and an
atom is equal (complementary) to −1 iff it is true (false) there. -/
theorem C83_blight (f : Boolf) (hf : Reach f) : ∃ s, f.blight = .ok s ∧
    (∀ a b x y : Nat, a ≠ b → f.atomvals[a]? = some x → f.atomvals[b]? = some y →
      (s.areEqual a b = true ↔ ∀ key : Nat, f.getItem key = .ok true → key.testBit x = key.testBit y) ∧
      (s.areComp a b = true ↔ ∀ key : Nat, f.getItem key = .ok true → key.testBit x ≠ key.testBit y)) ∧
    (∀ a x : Nat, f.atomvals[a]? = some x →
      (s.areEqual a (-1) = true ↔ ∀ key : Nat, f.getItem key = .ok true → key.testBit x = true) ∧
      (s.areComp a (-1) = true ↔ ∀ key : Nat, f.getItem key = .ok true → key.testBit x = false)) ∧
    ∀ z b : Int, z < -1 ∨ (f.valency : Int) ≤ z → b ≠ z →
      s.areEqual z b = false ∧ s.areEqual b z = false ∧ s.areComp z b = false ∧ s.areComp b z = false := by
  have h := hf.canon
  obtain ⟨s, s1, s2⟩ := blight_reach h
  obtain ⟨_, c1, c2⟩ := C45_consequences _ s s2
  have hl : ∀ {k x : Nat}, f.atomvals[k]? = some x → k < f.valency := fun hk => by rw [h.val]; exact getElem?_some_lt hk
  have hm : ∀ v, Models (fun g => g ∈ bloatFacts f.fullspots f.valency ∨ g ∈ blotFacts f.fullspots f.valency) v ↔
      Models (· ∈ bloatFacts f.fullspots f.valency) v ∧ Models (· ∈ blotFacts f.fullspots f.valency) v := by
    intro v
    exact ⟨fun h => ⟨fun g hg => h g (Or.inl hg), fun g hg => h g (Or.inr hg)⟩, fun h g hg => hg.elim (h.1 g) (h.2 g)⟩
  refine ⟨s, s1, fun a b x y hab ha hb => ?_, fun a x ha => ?_, fun z b hz hb => no_info s2 (fun v hv => ?_) hb⟩
  · obtain ⟨k1, k2⟩ := eqOn_key h.toSound ha hb
    have hF := spots_of_atom h ha
    rw [← k1, ← k2, c1 _ _ (by omega), c2]
    constructor <;> constructor
    · intro hall t ht; exact hall _ ((hm _).2 (models_spot ht _))
    · intro he v hv; exact ((models_bloat hF _ v).1 ((hm v).1 hv).1 a b (hl ha) (hl hb)).1 he
    · intro hall t ht; exact hall _ ((hm _).2 (models_spot ht _))
    · intro he v hv; exact ((models_bloat hF _ v).1 ((hm v).1 hv).1 a b (hl ha) (hl hb)).2 he
  · obtain ⟨k1, k2⟩ := eqOn_key1 h.toSound ha
    have hF := spots_of_atom h ha
    rw [← k1, ← k2, c1 _ _ (by omega), c2]
    constructor <;> constructor
    · intro hall t ht; exact hall _ ((hm _).2 (models_spot ht _))
    · intro he v hv; exact ((models_blot hF _ v).1 ((hm v).1 hv).2 a (hl ha)).1 he
    · intro hall t ht; exact hall _ ((hm _).2 (models_spot ht _))
    · intro he v hv; exact ((models_blot hF _ v).1 ((hm v).1 hv).2 a (hl ha)).2 he
  · rw [hm] at hv ⊢
    exact ⟨bloat_flip (by omega) v hv.1, blot_flip (by tauto) v hv.2⟩

end Verif.BF
