import Verif.Perm.Ops
import Mathlib.Logic.Function.Iterate
import Mathlib.Data.Nat.ModEq

/-! Helper lemmas: the cycle decomposition and what follows from it. -/

namespace Verif.P
open Verif.Py

/-- `c` lists one orbit of `f` in the order of application. -/
structure IsCycle (f : Nat → Nat) (c : List Nat) : Prop where
  two_le : 2 ≤ c.length
  nodup : c.Nodup
  next : ∀ x y, NextIn c x y → f x = y

theorem Good.erase_keys {m : Dict Nat Nat} {k : Nat} {i : Nat} (h : (m.keys).Nodup) :
    i ∈ (m.erase k).keys ↔ i ∈ m.keys ∧ i ≠ k := by
  rw [Dict.mem_keys_iff, Dict.get?_erase h]
  by_cases hik : k = i
  · subst hik; simp
  · simp [hik, Dict.mem_keys_iff, Ne.symm hik]

theorem IsCycle.getElem {f : Nat → Nat} {c : List Nat} (h : IsCycle f c) {i : Nat} (hi : i < c.length) :
    f c[i] = c[(i + 1) % c.length]'(Nat.mod_lt _ (by omega)) :=
  h.next _ _ ⟨i, hi, rfl, rfl⟩

/-- Invariant of the inner loop: `cycle` is a path ending in `oldKey`, and exactly the earlier
entries have been removed from the mapping. -/
theorem cycleLoop_spec (f : Nat → Nat) (hinj : Function.Injective f) (k0 : Nat) (K : List Nat)
    (hK : ∀ i ∈ K, f i ∈ K) (hne : ∀ i ∈ K, f i ≠ i) :
    ∀ (fuel : Nat) (m : Dict Nat Nat) (c : List Nat) (old : Nat), (m.keys).Nodup → m.length < fuel →
    (∀ i, m.get? i = if i ∈ K ∧ (i ∉ c ∨ i = old) then some (f i) else none) →
    (∀ x ∈ c, x ∈ K) → c.Nodup → c.head? = some k0 → c.getLast? = some old →
    (∀ i, ∀ h : i + 1 < c.length, f c[i] = c[i + 1]) →
    ∃ m' c', cycleLoop fuel m c old = .ok (m', c') ∧ (m'.keys).Nodup ∧ IsCycle f c' ∧ c'.head? = some k0 ∧
      (∀ x ∈ c', x ∈ K) ∧ m'.length < m.length ∧
      (∀ i, m'.get? i = if i ∈ K ∧ i ∉ c' then some (f i) else none) := by
  intro fuel
  induction fuel with
  | zero => intro m c old _ h; omega
  | succ fuel ih =>
    intro m c old hn hf hget hcK hcn hhead hlast hpath
    have hold : old ∈ c := List.mem_of_getLast? hlast
    have hoK : old ∈ K := hcK old hold
    have hm : m.get? old = some (f old) := by rw [hget, if_pos ⟨hoK, Or.inr rfl⟩]
    have hmemold : old ∈ m.keys := Dict.mem_keys_iff.2 ⟨_, hm⟩
    have hlen : (m.erase old).length + 1 = m.length := by
      have h1 : (m.erase old).length = m.length - 1 := Dict.length_erase hmemold
      have h2 : 0 < m.length := by rw [← Dict.length_keys]; exact List.length_pos_of_mem hmemold
      omega
    have hget' : ∀ i, (m.erase old).get? i = if i ∈ K ∧ i ∉ c then some (f i) else none := by
      intro i
      rw [Dict.get?_erase hn, hget]
      by_cases hio : old = i
      · subst hio; simp [hold]
      · simp [hio, Ne.symm hio]
    have hn' : ((m.erase old).keys).Nodup := by rw [Dict.keys_erase]; exact hn.erase _
    unfold cycleLoop
    rw [hm]
    simp only
    by_cases hin : f old ∈ c
    · rw [if_neg (by simpa using hin)]
      refine ⟨_, _, rfl, hn', ⟨?_, hcn, ?_⟩, hhead, hcK, by omega, hget'⟩
      · -- at least two entries, because `f old ≠ old`
        by_contra hc
        match c, hold, hin with
        | [x], h1, h2 =>
          simp at h1 h2
          exact hne old hoK (by rw [h2, h1])
        | x :: y :: r, _, _ => simp at hc
      · rintro x y ⟨i, hi, rfl, rfl⟩
        by_cases hi1 : i + 1 < c.length
        · rw [hpath i hi1]; congr 1; exact (Nat.mod_eq_of_lt hi1).symm
        · have hil : i = c.length - 1 := by omega
          have holdi : c[i] = old := by
            rw [List.getLast?_eq_getElem?, ← hil, List.getElem?_eq_getElem hi] at hlast
            exact Option.some.inj hlast
          obtain ⟨j, hj, hj2⟩ := List.getElem_of_mem hin
          have hj0 : j = 0 := by
            by_contra hj0
            obtain ⟨j', rfl⟩ := Nat.exists_eq_succ_of_ne_zero hj0
            have h3 := hinj ((hpath j' hj).trans hj2)
            rw [← holdi] at h3
            have := (List.Nodup.getElem_inj_iff hcn).1 h3
            omega
          have h0 : (i + 1) % c.length = j := by
            rw [hj0, hil, Nat.sub_add_cancel (by omega), Nat.mod_self]
          rw [holdi, ← hj2]
          congr 1
          exact h0.symm
    · rw [if_pos hin]
      have hcl : 0 < c.length := List.length_pos_of_mem hold
      obtain ⟨m', c', e1, e2, e3, e4, e5, e6, e7⟩ := ih (m.erase old) (c ++ [f old]) (f old) hn' (by omega) (by
          intro i
          rw [hget']
          by_cases hi : i = f old
          · subst hi; simp [hin]
          · simp [hi]) (by
          intro x hx
          rcases List.mem_append.1 hx with hx | hx
          · exact hcK x hx
          · simp at hx; subst hx; exact hK _ hoK) (by
          rw [List.nodup_append]
          exact ⟨hcn, by simp, by intro a ha b hb; simp at hb; subst hb; intro h; subst h; exact hin ha⟩)
          (by rw [List.head?_append, hhead]; rfl) (by simp) (by
          intro i hi
          simp only [List.length_append, List.length_cons, List.length_nil] at hi
          by_cases h1 : i + 1 < c.length
          · rw [List.getElem_append_left (by omega), List.getElem_append_left h1]
            exact hpath i h1
          · have hil : i = c.length - 1 := by omega
            rw [List.getElem_append_left (by omega), List.getElem_append_right (by omega)]
            have holdi : c[i]'(by omega) = old := by
              rw [List.getLast?_eq_getElem?, ← hil, List.getElem?_eq_getElem (by omega)] at hlast
              exact Option.some.inj hlast
            rw [holdi]
            simp)
      exact ⟨m', c', e1, e2, e3, e4, e5, by omega, e7⟩

/-- The disjoint cycle decomposition of `f`, whose non-fixed points are the elements of `K`. -/
structure CycleSpec (f : Nat → Nat) (K : List Nat) (cs : List (List Nat)) : Prop where
  cycle : ∀ c ∈ cs, IsCycle f c
  nodup : cs.flatten.Nodup
  mem : ∀ x, x ∈ cs.flatten ↔ x ∈ K
  headMin : ∀ c ∈ cs, ∀ h, c.head? = some h → ∀ x ∈ c, h ≤ x
  sorted : cs.Pairwise (fun c d => ∀ a b, c.head? = some a → d.head? = some b → a < b)

theorem IsCycle.mem_iff {f : Nat → Nat} {c : List Nat} (hinj : Function.Injective f) (h : IsCycle f c) (x : Nat) :
    f x ∈ c ↔ x ∈ c := by
  constructor
  · intro hx
    obtain ⟨j, hj, hj2⟩ := List.getElem_of_mem hx
    -- the predecessor of place j
    have h2 := h.two_le
    by_cases hj0 : j = 0
    · subst hj0
      have h3 := h.getElem (i := c.length - 1) (by omega)
      have h4 : (c.length - 1 + 1) % c.length = 0 := by rw [Nat.sub_add_cancel (by omega), Nat.mod_self]
      simp only [h4, hj2] at h3
      rw [← hinj h3]; exact List.getElem_mem _
    · have h3 := h.getElem (i := j - 1) (by omega)
      have h4 : (j - 1 + 1) % c.length = j := by rw [Nat.sub_add_cancel (by omega), Nat.mod_eq_of_lt hj]
      simp only [h4, hj2] at h3
      rw [← hinj h3]; exact List.getElem_mem _
  · intro hx
    obtain ⟨j, hj, rfl⟩ := List.getElem_of_mem hx
    rw [h.getElem hj]; exact List.getElem_mem _

theorem cyclesLoop_spec (f : Nat → Nat) (hinj : Function.Injective f) :
    ∀ (fuel : Nat) (m : Dict Nat Nat) (res : List (List Nat)), (m.keys).Nodup → m.length ≤ fuel →
    (∀ i, i ∈ m.keys → f i ∈ m.keys) → (∀ i ∈ m.keys, m.get? i = some (f i)) → (∀ i ∈ m.keys, f i ≠ i) →
    ∃ cs, cyclesLoop fuel m res = .ok (res ++ cs) ∧ CycleSpec f m.keys cs := by
  intro fuel
  induction fuel with
  | zero =>
    intro m res hn hf hK hget hne
    have : m = [] := List.length_eq_zero_iff.1 (by omega)
    subst this
    unfold cyclesLoop
    refine ⟨[], by simp [sorted], ⟨by simp, by simp, by simp, by simp, by simp⟩⟩
  | succ fuel ih =>
    intro m res hn hf hK hget hne
    cases hs : sorted m.keys with
    | nil =>
      have hm : m.keys = [] := by
        have := (sorted_perm m.keys).length_eq
        rw [hs] at this
        exact List.length_eq_zero_iff.1 (by simpa using this.symm)
      unfold cyclesLoop
      rw [hs]
      refine ⟨[], by simp, ⟨by simp, by simp, by simp [hm], by simp, by simp⟩⟩
    | cons key rest =>
      have hkey : key ∈ m.keys := by rw [← mem_sorted, hs]; simp
      have hmin : ∀ x ∈ m.keys, key ≤ x := by
        intro x hx
        rw [← mem_sorted, hs] at hx
        have hp := sorted_pairwise m.keys
        rw [hs, List.pairwise_cons] at hp
        rcases List.mem_cons.1 hx with rfl | hx
        · exact Nat.le_refl _
        · exact hp.1 x hx
      obtain ⟨m', c, e1, e2, e3, e4, e5, e6, e7⟩ := cycleLoop_spec f hinj key m.keys hK hne (m.length + 1) m [key] key
        hn (by omega) (by
          intro i
          by_cases hi : i ∈ m.keys
          · rw [hget i hi, if_pos]
            refine ⟨hi, ?_⟩
            by_cases h : i = key
            · exact Or.inr h
            · left; simpa using h
          · rw [Dict.get?_eq_none.2 hi, if_neg (fun h => hi h.1)]) (by simpa using hkey) (by simp) rfl rfl (by simp)
      have hmem' : ∀ i, i ∈ m'.keys ↔ i ∈ m.keys ∧ i ∉ c := by
        intro i
        rw [Dict.mem_keys_iff, e7]
        by_cases h : i ∈ m.keys ∧ i ∉ c <;> simp [h]
      obtain ⟨cs, f1, f2⟩ := ih m' (res ++ [c]) e2 (by omega) (by
          intro i hi
          rw [hmem'] at hi ⊢
          exact ⟨hK i hi.1, fun h => hi.2 ((e3.mem_iff hinj i).1 h)⟩) (by
          intro i hi
          rw [e7, if_pos ((hmem' i).1 hi)]) (by
          intro i hi; exact hne i ((hmem' i).1 hi).1)
      refine ⟨c :: cs, ?_, ⟨?_, ?_, ?_, ?_, ?_⟩⟩
      · rw [cyclesLoop, hs]
        simp only [e1]
        rw [f1]
        simp
      · intro d hd
        rcases List.mem_cons.1 hd with rfl | hd
        · exact e3
        · exact f2.cycle d hd
      · rw [List.flatten_cons, List.nodup_append]
        refine ⟨e3.nodup, f2.nodup, ?_⟩
        intro a ha b hb hab
        subst hab
        exact ((hmem' a).1 ((f2.mem a).1 hb)).2 ha
      · intro x
        rw [List.flatten_cons, List.mem_append, f2.mem, hmem']
        constructor
        · rintro (h | h)
          · exact e5 x h
          · exact h.1
        · intro h
          by_cases hx : x ∈ c
          · exact Or.inl hx
          · exact Or.inr ⟨h, hx⟩
      · intro d hd h hh x hx
        rcases List.mem_cons.1 hd with rfl | hd
        · rw [e4] at hh; cases hh; exact hmin x (e5 x hx)
        · exact f2.headMin d hd h hh x hx
      · rw [List.pairwise_cons]
        refine ⟨?_, f2.sorted⟩
        intro d hd a b ha hb
        rw [e4] at ha; cases ha
        have hbd : b ∈ d := List.mem_of_mem_head? (by rw [hb]; rfl)
        have hbm : b ∈ m'.keys := (f2.mem b).1 (List.mem_flatten.2 ⟨d, hd, hbd⟩)
        have := (hmem' b).1 hbm
        have h1 := hmin b this.1
        have h2 : b ≠ key := by
          rintro rfl
          exact this.2 (List.mem_of_mem_head? (by rw [e4]; rfl))
        omega

theorem WF.cycles_spec {p : Perm} (hw : WF p) :
    ∃ cs, p.cycles = .ok cs ∧ CycleSpec (dictFun p.mapping) p.mapping.keys cs := by
  unfold Perm.cycles
  split
  · rename_i h
    have := hw.neutral_iff.1 h
    rw [this]
    exact ⟨[], rfl, ⟨by simp, by simp, by simp, by simp, by simp⟩⟩
  · obtain ⟨cs, h1, h2⟩ := cyclesLoop_spec (dictFun p.mapping) hw.good.injective p.mapping.length
      p.mapping [] hw.good.nodup (Nat.le_refl _) (fun i hi => hw.good.mapsTo hi) (fun i hi => get?_eq_dictFun hi)
      (fun i hi => hw.good.mem_keys_iff_ne.1 hi)
    exact ⟨cs, by simpa using h1, h2⟩

/-! ## Iterates along a cycle -/

theorem IsCycle.iterate {f : Nat → Nat} {c : List Nat} (h : IsCycle f c) {i : Nat} (hi : i < c.length) (n : Nat) :
    f^[n] c[i] = c[(i + n) % c.length]'(Nat.mod_lt _ (by omega)) := by
  induction n with
  | zero => simp only [Function.iterate_zero, id, Nat.add_zero]; congr 1; exact (Nat.mod_eq_of_lt hi).symm
  | succ n ih =>
    rw [Function.iterate_succ_apply', ih, h.getElem]
    congr 1
    rw [← Nat.add_assoc, Nat.mod_add_mod]

theorem IsCycle.iterate_eq_iff {f : Nat → Nat} {c : List Nat} (h : IsCycle f c) {x : Nat} (hx : x ∈ c) (n : Nat) :
    f^[n] x = x ↔ c.length ∣ n := by
  obtain ⟨i, hi, rfl⟩ := List.getElem_of_mem hx
  rw [h.iterate hi, List.Nodup.getElem_inj_iff h.nodup]
  have h2 := h.two_le
  constructor
  · intro h1
    have : (i + n) % c.length = (i + 0) % c.length := by rw [h1, Nat.add_zero, Nat.mod_eq_of_lt hi]
    have : n % c.length = 0 % c.length := Nat.ModEq.add_left_cancel' i this
    rw [Nat.zero_mod] at this
    exact Nat.dvd_of_mod_eq_zero this
  · rintro ⟨k, rfl⟩
    rw [Nat.add_mul_mod_self_left, Nat.mod_eq_of_lt hi]

theorem foldl_lcm_dvd_iff (l : List Nat) (a n : Nat) : l.foldl Nat.lcm a ∣ n ↔ a ∣ n ∧ ∀ x ∈ l, x ∣ n := by
  induction l generalizing a with
  | nil => simp
  | cons b l ih =>
    rw [List.foldl_cons, ih, Nat.lcm_dvd_iff]
    simp [and_assoc]

theorem foldl_lcm_pos (l : List Nat) (a : Nat) (ha : 0 < a) (h : ∀ x ∈ l, 0 < x) : 0 < l.foldl Nat.lcm a := by
  induction l generalizing a with
  | nil => simpa
  | cons b l ih =>
    rw [List.foldl_cons]
    exact ih _ (Nat.lcm_pos ha (h b (by simp))) (fun x hx => h x (List.mem_cons_of_mem _ hx))

theorem CycleSpec.iterate_id_iff {f : Nat → Nat} {K : List Nat} {cs : List (List Nat)} (h : CycleSpec f K cs)
    (hfix : ∀ x, x ∉ K → f x = x) (n : Nat) :
    (∀ x, f^[n] x = x) ↔ (cs.map List.length).foldl Nat.lcm 1 ∣ n := by
  rw [foldl_lcm_dvd_iff]
  simp only [one_dvd, true_and, List.mem_map, forall_exists_index, and_imp, forall_apply_eq_imp_iff₂]
  constructor
  · intro h1 c hc
    have hcy := h.cycle c hc
    have : 0 < c.length := by have := hcy.two_le; omega
    exact (hcy.iterate_eq_iff (List.getElem_mem this) n).1 (h1 _)
  · intro h1 x
    by_cases hx : x ∈ K
    · rw [← h.mem, List.mem_flatten] at hx
      obtain ⟨c, hc, hxc⟩ := hx
      exact ((h.cycle c hc).iterate_eq_iff hxc n).2 (h1 c hc)
    · exact Function.iterate_fixed (hfix x hx) n

theorem per_iterate {f : Nat → Nat} {L : Nat} (hL : 0 < L) (hf : ∀ i < L, f i < L) (n : Nat) :
    (per f L)^[n] = per (f^[n]) L ∧ ∀ i < L, f^[n] i < L := by
  induction n with
  | zero =>
    refine ⟨?_, fun i hi => hi⟩
    funext i; simp only [Function.iterate_zero, id, per]; exact (Nat.mod_add_div i L).symm
  | succ n ih =>
    obtain ⟨h1, h2⟩ := ih
    have h3 : ∀ i < L, f^[n + 1] i < L := by
      intro i hi; rw [Function.iterate_succ_apply']; exact hf _ (h2 i hi)
    refine ⟨?_, h3⟩
    funext i
    rw [Function.iterate_succ_apply', h1]
    have := h2 (i % L) (Nat.mod_lt _ hL)
    unfold per
    rw [Nat.add_mul_mod_self_left, Nat.mod_eq_of_lt this, Nat.add_mul_div_left _ _ hL, Nat.div_eq_of_lt this,
      Nat.zero_add, Function.iterate_succ_apply']

theorem WF.get_iterate_id_iff {p : Perm} (hw : WF p) (n : Nat) :
    (∀ i, p.get^[n] i = i) ↔ ∀ i, (dictFun p.mapping)^[n] i = i := by
  cases hp : p.perilen with
  | none => rw [get_finite hw hp]
  | some l =>
    have h2 := hw.per_ge l hp
    rw [get_periodic hw hp, (per_iterate (by omega) (hw.good.per_lt (hw.per_lt l hp)) n).1]
    constructor
    · intro h i
      by_cases hi : i < l
      · have := h i; rw [per_of_lt _ hi] at this; exact this
      · have : dictFun p.mapping i = i := by
          apply dictFun_of_not_mem; intro hc; exact hi (hw.per_lt l hp i hc)
        exact Function.iterate_fixed this n
    · intro h i
      unfold per; rw [h]; exact Nat.mod_add_div i l

theorem WF.order_spec {p : Perm} (hw : WF p) :
    ∃ o, p.order = .ok o ∧ 0 < o ∧ ∀ n, (∀ i, p.get^[n] i = i) ↔ o ∣ n := by
  obtain ⟨cs, h1, h2⟩ := hw.cycles_spec
  have h3 := h2.iterate_id_iff (fun x hx => dictFun_of_not_mem hx)
  unfold Perm.order
  split
  · rename_i hn
    refine ⟨1, rfl, by omega, ?_⟩
    intro n
    simp only [one_dvd, iff_true]
    intro i
    exact Function.iterate_fixed (hw.neutral_iff_get.1 hn i) n
  · rw [h1]
    refine ⟨_, rfl, ?_, ?_⟩
    · apply foldl_lcm_pos _ _ (by omega)
      intro x hx
      obtain ⟨c, hc, rfl⟩ := List.mem_map.1 hx
      have := (h2.cycle c hc).two_le
      omega
    · intro n
      rw [hw.get_iterate_id_iff, h3]

/-! ## Powers -/

/-- The `n`-fold iterate of the permutation, for negative `n` of its inverse function. -/
def IsIterate (f : Nat → Nat) (n : Int) (g : Nat → Nat) : Prop :=
  if 0 ≤ n then g = f^[n.toNat] else ∀ i, f^[(-n).toNat] (g i) = i

theorem sameKind_self_chain {p r : Perm} (h1 : p.perilen = none → r.perilen = none)
    (h2 : (p.neutral = true ∨ p.perilen.isSome = true) → (r.neutral = true ∨ r.perilen.isSome = true)) :
    SameKind r p := by
  unfold SameKind
  cases hp : p.perilen with
  | none => right; right; rw [h1 hp]
  | some l =>
    rcases h2 (Or.inr (by rw [hp]; rfl)) with h | h
    · left; exact h
    · right; right; rw [h]; rfl

theorem mulLoop_spec {p : Perm} (hp : Constructed p) (n : Nat) : ∀ r, Constructed r →
    (p.perilen = none → r.perilen = none) →
    ((p.neutral = true ∨ p.perilen.isSome = true) → (r.neutral = true ∨ r.perilen.isSome = true)) →
    ∃ q, mulLoop p n r = .ok q ∧ Constructed q ∧ q.get = r.get ∘ p.get^[n] ∧
    (p.perilen = none → q.perilen = none) ∧
    ((p.neutral = true ∨ p.perilen.isSome = true) → (q.neutral = true ∨ q.perilen.isSome = true)) := by
  induction n with
  | zero => intro r hr h1 h2; exact ⟨r, rfl, hr, rfl, h1, h2⟩
  | succ n ih =>
    intro r hr h1 h2
    obtain ⟨c, e1, e2, e3, e4, e5⟩ := mul_spec hr hp (sameKind_self_chain h1 h2)
    obtain ⟨q, f1, f2, f3, f4, f5⟩ := ih c e2 (fun h => e4 (h1 h) h) (fun h => e5 (h2 h) h)
    refine ⟨q, ?_, f2, ?_, f4, f5⟩
    · unfold mulLoop; rw [e1]; exact f1
    · rw [f3, e3, Function.iterate_succ', Function.comp_assoc]

end Verif.P
