import Verif.Perm.Sem
import Mathlib.Data.List.Rotate

/-! Helper lemmas: the constructor on its three argument forms, product, inverse and powers. -/

namespace Verif.P
open Verif.Py

/-! ## Argument forms -/

/-- The arguments which python code can pass (`dict`: keys are unique) and which the documentation
means (`cycles`: no element occurs twice). -/
def Arg.Valid : Arg → Prop
  | .noArg => True
  | .seq _ => True
  | .cycles cs => cs.flatten.Nodup
  | .dict d => (d.keys).Nodup

theorem good_filter_ne {d : Dict Nat Nat} (hn : (d.keys).Nodup) (hp : d.keys.Perm d.values) :
    Good (d.filter (fun kv => kv.1 ≠ kv.2)) ∧ dictFun (d.filter (fun kv => kv.1 ≠ kv.2)) = dictFun d := by
  have hv : (d.values).Nodup := hp.nodup_iff.1 hn
  have hinj : ∀ i ∈ d.keys, ∀ j ∈ d.keys, dictFun d i = dictFun d j → i = j := by
    rw [values_eq hn] at hv
    exact fun i hi j hj h => List.inj_on_of_nodup_map hv hi hj h
  have hmaps : ∀ i ∈ d.keys, dictFun d i ∈ d.keys := by
    intro i hi
    rw [hp.mem_iff, values_eq hn]
    exact List.mem_map_of_mem hi
  have hfun : dictFun (d.filter (fun kv => kv.1 ≠ kv.2)) = dictFun d := by
    funext i
    unfold dictFun
    rw [get?_filter hn]
    cases h : d.get? i with
    | none => simp
    | some v =>
      by_cases hiv : i = v
      · subst hiv; simp [Option.filter]
      · simp [Option.filter, hiv]
  have hkeys : ∀ i, i ∈ Dict.keys (d.filter (fun kv => kv.1 ≠ kv.2)) ↔ i ∈ d.keys ∧ dictFun d i ≠ i := by
    intro i
    rw [Dict.mem_keys_iff, get?_filter hn]
    constructor
    · rintro ⟨v, hv⟩
      cases h : d.get? i with
      | none => rw [h] at hv; simp at hv
      | some w =>
        rw [h] at hv
        simp only [Option.filter] at hv
        split at hv
        · rename_i hne
          refine ⟨Dict.mem_keys_iff.2 ⟨w, h⟩, ?_⟩
          rw [dictFun_of_mem h]
          intro h'; simp [h'] at hne
        · cases hv
    · rintro ⟨h1, h2⟩
      refine ⟨dictFun d i, ?_⟩
      rw [get?_eq_dictFun h1]
      simp [Option.filter, Ne.symm h2]
  have hn' : (Dict.keys (d.filter (fun kv => kv.1 ≠ kv.2))).Nodup := by
    have : (Dict.keys (d.filter (fun kv => kv.1 ≠ kv.2))).Sublist d.keys := by
      unfold Dict.keys; exact List.Sublist.map _ (List.filter_sublist)
    exact this.nodup hn
  refine ⟨⟨hn', ?_, ?_⟩, hfun⟩
  · rw [values_eq hn', hfun]
    apply perm_map_of_inj hn'
    · intro i hi j hj h
      exact hinj i ((hkeys i).1 hi).1 j ((hkeys j).1 hj).1 h
    · intro i hi
      obtain ⟨h1, h2⟩ := (hkeys i).1 hi
      refine (hkeys _).2 ⟨hmaps i h1, ?_⟩
      intro h3
      exact h2 (hinj _ (hmaps i h1) _ h1 h3)
  · intro kv hkv
    simpa using (List.mem_filter.1 hkv).2

theorem ofPairs_filter {d : Dict Nat Nat} (hn : (d.keys).Nodup) (P : Nat × Nat → Bool) :
    Dict.ofPairs (d.filter P) = d.filter P := by
  apply Dict.ofPairs_of_nodup
  have : (Dict.keys (d.filter P)).Sublist d.keys := by
    unfold Dict.keys; exact List.Sublist.map _ (List.filter_sublist)
  exact this.nodup hn

theorem argMapping_dict {d : Dict Nat Nat} (hn : (d.keys).Nodup) (hp : d.keys.Perm d.values) :
    ∃ m, argMapping (.dict d) = .ok m ∧ Good m ∧ dictFun m = dictFun d := by
  refine ⟨_, ?_, (good_filter_ne hn hp).1, (good_filter_ne hn hp).2⟩
  unfold argMapping
  simp only
  rw [if_pos ((sorted_eq_sorted).2 hp), ofPairs_filter hn]

theorem argMapping_dict_error {d : Dict Nat Nat} (hp : ¬ d.keys.Perm d.values) :
    argMapping (.dict d) = .error .dictError := by
  unfold argMapping
  simp only
  rw [if_neg (fun h => hp ((sorted_eq_sorted).1 h))]

/-- The list as a table. -/
def seqDict (l : List Nat) : Dict Nat Nat := l.zipIdx.map (fun p => (p.2, p.1))

theorem keys_seqDict (l : List Nat) : (seqDict l).keys = List.range l.length := by
  unfold seqDict Dict.keys
  rw [List.map_map]
  have : (Prod.fst ∘ fun p : Nat × Nat => (p.2, p.1)) = Prod.snd := rfl
  rw [this, List.zipIdx_map_snd, List.range_eq_range']

theorem values_seqDict (l : List Nat) : (seqDict l).values = l := by
  unfold seqDict Dict.values
  rw [List.map_map]
  have : (Prod.snd ∘ fun p : Nat × Nat => (p.2, p.1)) = Prod.fst := rfl
  rw [this, List.zipIdx_map_fst]

theorem dictFun_seqDict (l : List Nat) (i : Nat) : dictFun (seqDict l) i = (l[i]?).getD i := by
  have hn : (Dict.keys (seqDict l)).Nodup := by rw [keys_seqDict]; exact List.nodup_range
  unfold dictFun
  congr 1
  by_cases h : i < l.length
  · rw [Dict.get?_iff_mem hn |>.2, List.getElem?_eq_getElem h]
    unfold seqDict
    rw [List.mem_map]
    exact ⟨(l[i], i), by simp [List.mem_zipIdx_iff_getElem?, h], rfl⟩
  · rw [List.getElem?_eq_none (by omega), Dict.get?_eq_none, keys_seqDict]
    simp; omega

theorem argMapping_seq {l : List Nat} (hp : l.Perm (List.range l.length)) :
    ∃ m, argMapping (.seq l) = .ok m ∧ Good m ∧ (∀ i, dictFun m i = (l[i]?).getD i) := by
  have hn : (Dict.keys (seqDict l)).Nodup := by rw [keys_seqDict]; exact List.nodup_range
  have hp' : (seqDict l).keys.Perm (seqDict l).values := by
    rw [keys_seqDict, values_seqDict]; exact hp.symm
  refine ⟨_, ?_, (good_filter_ne hn hp').1, ?_⟩
  · unfold argMapping
    simp only
    rw [if_pos ((sorted_eq_range).2 hp)]
    rw [show (l.zipIdx.map (fun p => (p.2, p.1))) = seqDict l from rfl, ofPairs_filter hn]
  · intro i
    rw [(good_filter_ne hn hp').2, dictFun_seqDict]

theorem argMapping_seq_error {l : List Nat} (hp : ¬ l.Perm (List.range l.length)) :
    argMapping (.seq l) = .error .sequenceError := by
  unfold argMapping
  simp only
  rw [if_neg (fun h => hp ((sorted_eq_range).1 h))]

/-! ### Cycles -/

/-- The pairs of one cycle. -/
def cycleDict (c : List Nat) : Dict Nat Nat :=
  c.zipIdx.map (fun p => (p.1, (c[(p.2 + 1) % c.length]?).getD p.1))

theorem keys_cycleDict (c : List Nat) : (cycleDict c).keys = c := by
  unfold cycleDict Dict.keys
  rw [List.map_map]
  have : (Prod.fst ∘ fun p : Nat × Nat => (p.1, (c[(p.2 + 1) % c.length]?).getD p.1)) = Prod.fst := rfl
  rw [this, List.zipIdx_map_fst]

theorem mem_cycleDict {c : List Nat} {x y : Nat} : (x, y) ∈ cycleDict c ↔
    ∃ i, ∃ h : i < c.length, c[i] = x ∧ c[(i + 1) % c.length]'(Nat.mod_lt _ (by omega)) = y := by
  unfold cycleDict
  rw [List.mem_map]
  constructor
  · rintro ⟨⟨a, i⟩, h1, h2⟩
    rw [List.mem_zipIdx_iff_getElem?] at h1
    simp only [Prod.mk.injEq] at h2 h1
    obtain ⟨hi, h1⟩ := List.getElem?_eq_some_iff.1 h1
    refine ⟨i, hi, h1.trans h2.1, ?_⟩
    rw [← h2.2, List.getElem?_eq_getElem (Nat.mod_lt _ (by omega))]
    rfl
  · rintro ⟨i, hi, h1, h2⟩
    refine ⟨(x, i), ?_, ?_⟩
    · rw [List.mem_zipIdx_iff_getElem?]; simp [hi, h1]
    · simp only [Prod.mk.injEq, true_and]
      rw [List.getElem?_eq_getElem (Nat.mod_lt _ (by omega))]
      exact h2

theorem values_cycleDict (c : List Nat) : (cycleDict c).values = c.rotate 1 := by
  apply List.ext_getElem?
  intro i
  unfold cycleDict Dict.values
  rw [List.map_map, List.getElem?_map, List.getElem?_zipIdx]
  by_cases h : i < c.length
  · rw [List.getElem?_rotate h, List.getElem?_eq_getElem h]
    have : (i + 1) % c.length < c.length := Nat.mod_lt _ (by omega)
    simp [List.getElem?_eq_getElem this]
  · rw [List.getElem?_eq_none (by omega), List.getElem?_eq_none (by simp; omega)]
    rfl

theorem keys_flatMap_cycleDict (cs : List (List Nat)) : Dict.keys (cs.flatMap cycleDict) = cs.flatten := by
  induction cs with
  | nil => rfl
  | cons c cs ih =>
    rw [List.flatMap_cons, Dict.keys_append, keys_cycleDict, ih, List.flatten_cons]

theorem values_append (m₁ m₂ : Dict Nat Nat) : Dict.values (m₁ ++ m₂) = m₁.values ++ m₂.values := by
  unfold Dict.values; rw [List.map_append]

theorem values_flatMap_cycleDict (cs : List (List Nat)) :
    (Dict.values (cs.flatMap cycleDict)).Perm cs.flatten := by
  induction cs with
  | nil => exact List.Perm.refl _
  | cons c cs ih =>
    rw [List.flatMap_cons, values_append, values_cycleDict, List.flatten_cons]
    exact (List.rotate_perm c 1).append ih

/-- `y` follows `x` in the cycle `c`. -/
def NextIn (c : List Nat) (x y : Nat) : Prop :=
  ∃ i, ∃ h : i < c.length, c[i] = x ∧ c[(i + 1) % c.length]'(Nat.mod_lt _ (by omega)) = y

theorem argMapping_cycles {cs : List (List Nat)} (h : cs.flatten.Nodup) :
    ∃ m, argMapping (.cycles cs) = .ok m ∧ Good m ∧
      (∀ c ∈ cs, ∀ x y, NextIn c x y → dictFun m x = y) ∧
      (∀ x, x ∉ cs.flatten → dictFun m x = x) := by
  have hk := keys_flatMap_cycleDict cs
  have hn : (Dict.keys (cs.flatMap cycleDict)).Nodup := by rw [hk]; exact h
  have hp : (Dict.keys (cs.flatMap cycleDict)).Perm (Dict.values (cs.flatMap cycleDict)) := by
    rw [hk]; exact (values_flatMap_cycleDict cs).symm
  refine ⟨_, ?_, (good_filter_ne hn hp).1, ?_, ?_⟩
  · unfold argMapping
    simp only
    rw [show (cs.flatMap (fun cycle =>
      cycle.zipIdx.map (fun p => (p.1, (cycle[(p.2 + 1) % cycle.length]?).getD p.1)))) =
        cs.flatMap cycleDict from rfl, ofPairs_filter hn]
  · intro c hc x y hxy
    rw [(good_filter_ne hn hp).2]
    apply dictFun_of_mem
    rw [Dict.get?_iff_mem hn, List.mem_flatMap]
    exact ⟨c, hc, mem_cycleDict.2 hxy⟩
  · intro x hx
    rw [(good_filter_ne hn hp).2]
    apply dictFun_of_not_mem
    rw [hk]; exact hx

/-! ## Everything the constructor returns is well-formed -/

theorem wf_finish {m : Dict Nat Nat} (hg : Good m) {l : Option Nat} {p : Perm} (h : finish m l = .ok p) :
    WF p := by
  cases l with
  | none => obtain ⟨q, h1, h2, _⟩ := finish_none hg; rw [h1] at h; cases h; exact h2
  | some L =>
    by_cases hm : m = []
    · subst hm; simp [finish] at h; subst h; exact wf_neutral
    · by_cases hL : 2 ≤ L ∧ ∀ k ∈ m.keys, k < L
      · obtain ⟨q, _, h1, h2, _⟩ := finish_some hg hm hL.1 hL.2
        rw [h1] at h; cases h; exact h2
      · rw [finish_some_error hm hL] at h; cases h

theorem good_argMapping {arg : Arg} (hv : arg.Valid) {m : Dict Nat Nat} (h : argMapping arg = .ok m) :
    Good m := by
  cases arg with
  | noArg => simp [argMapping] at h; subst h; exact good_nil
  | seq l =>
    by_cases hp : l.Perm (List.range l.length)
    · obtain ⟨m', h1, h2, _⟩ := argMapping_seq hp; rw [h1] at h; cases h; exact h2
    · rw [argMapping_seq_error hp] at h; cases h
  | cycles cs => obtain ⟨m', h1, h2, _⟩ := argMapping_cycles hv; rw [h1] at h; cases h; exact h2
  | dict d =>
    by_cases hp : d.keys.Perm d.values
    · obtain ⟨m', h1, h2, _⟩ := argMapping_dict hv hp; rw [h1] at h; cases h; exact h2
    · rw [argMapping_dict_error hp] at h; cases h

theorem wf_mkPerm {arg : Arg} (hv : arg.Valid) {l : Option Nat} {p : Perm} (h : mkPerm arg l = .ok p) :
    WF p := by
  unfold mkPerm at h
  cases hm : argMapping arg with
  | error e => rw [hm] at h; cases h
  | ok m => rw [hm] at h; exact wf_finish (good_argMapping hv hm) h

/-- A permutation object that some constructor call with a valid argument returns. -/
def Constructed (p : Perm) : Prop := ∃ arg l, Arg.Valid arg ∧ mkPerm arg l = .ok p

theorem Constructed.wf {p : Perm} (h : Constructed p) : WF p := by
  obtain ⟨arg, l, hv, h⟩ := h; exact wf_mkPerm hv h

theorem constructed_neutral : Constructed neutralPerm := ⟨.noArg, none, trivial, rfl⟩

/-! ## Tables -/

theorem keys_ofPairs_tab {S : List Nat} (hS : S.Nodup) (f : Nat → Nat) :
    Dict.ofPairs (S.map (fun i => (i, f i))) = tab S f := by
  have : (Dict.keys (tab S f)).Nodup := by rw [keys_tab]; exact hS
  exact Dict.ofPairs_of_nodup this

theorem dictFun_tab (S : List Nat) (f : Nat → Nat) (i : Nat) :
    dictFun (tab S f) i = if i ∈ S then f i else i := by
  unfold dictFun; rw [get?_tab]; split <;> rfl

theorem mkPerm_tab {S : List Nat} (hS : S.Nodup) {f : Nat → Nat}
    (hinj : ∀ i ∈ S, ∀ j ∈ S, f i = f j → i = j) (hmaps : ∀ i ∈ S, f i ∈ S) :
    ∃ m, (∀ l, mkPerm (.dict (Dict.ofPairs (S.map (fun i => (i, f i))))) l = finish m l) ∧ Good m ∧
      (∀ i, dictFun m i = if i ∈ S then f i else i) ∧ (Arg.dict (Dict.ofPairs (S.map (fun i => (i, f i))))).Valid := by
  have hn : (Dict.keys (tab S f)).Nodup := by rw [keys_tab]; exact hS
  have hp : (tab S f).keys.Perm (tab S f).values := by
    rw [keys_tab, values_tab]; exact perm_map_of_inj hS hinj hmaps
  obtain ⟨m, h1, h2, h3⟩ := argMapping_dict hn hp
  refine ⟨m, ?_, h2, ?_, ?_⟩
  · intro l; rw [keys_ofPairs_tab hS]; unfold mkPerm; rw [h1]
  · intro i; rw [h3, dictFun_tab]
  · rw [keys_ofPairs_tab hS]; exact hn

theorem mkPerm_tab_none {S : List Nat} (hS : S.Nodup) {f : Nat → Nat} (hinj : Function.Injective f)
    (hmaps : ∀ i ∈ S, f i ∈ S) (hout : ∀ i, i ∉ S → f i = i) :
    ∃ p, mkPerm (.dict (Dict.ofPairs (S.map (fun i => (i, f i))))) none = .ok p ∧ Constructed p ∧
      p.perilen = none ∧ p.get = f := by
  obtain ⟨m, h1, h2, h3, h4⟩ := mkPerm_tab hS (fun _ _ _ _ h => hinj h) hmaps
  obtain ⟨p, e1, e2, e3, e4⟩ := finish_none h2
  rw [h1 none]
  refine ⟨p, e1, ⟨_, none, h4, (h1 none).trans e1⟩, e3, ?_⟩
  rw [e4]
  funext i
  rw [h3]
  split
  · rfl
  · rename_i h; exact (hout i h).symm

theorem mkPerm_tab_some {S : List Nat} (hS : S.Nodup) {L : Nat} (hL2 : 2 ≤ L) (hSL : ∀ i ∈ S, i < L)
    {f : Nat → Nat} (hinj : Function.Injective f)
    (hmaps : ∀ i ∈ S, f i ∈ S) (hout : ∀ i < L, i ∉ S → f i = i) (hsh : Shift f L) :
    ∃ p, mkPerm (.dict (Dict.ofPairs (S.map (fun i => (i, f i))))) (some L) = .ok p ∧ Constructed p ∧
      (p.neutral = true ∨ p.perilen.isSome = true) ∧ p.get = f := by
  obtain ⟨m, h1, h2, h3, h4⟩ := mkPerm_tab hS (fun _ _ _ _ h => hinj h) hmaps
  have hf : ∀ i < L, dictFun m i = f i := by
    intro i hi
    rw [h3]; split
    · rfl
    · rename_i h; exact (hout i hi h).symm
  have hfull : per (dictFun m) L = f := by
    funext i
    unfold per
    rw [hf _ (Nat.mod_lt _ (by omega))]
    have := hsh.mul (i / L) (i % L)
    rw [Nat.mul_comm (i / L) L, Nat.mod_add_div] at this
    rw [this]
  rw [h1 (some L)]
  by_cases hm : m = []
  · subst hm
    refine ⟨neutralPerm, by simp [finish], constructed_neutral, Or.inl rfl, ?_⟩
    rw [← hfull]
    funext i
    simp only [Perm.get, neutralPerm, per, dictFun, if_true, Dict.get?_nil, Option.getD_none]
    exact (Nat.mod_add_div i L).symm
  · have hk : ∀ k ∈ m.keys, k < L := by
      intro k hk
      have := h2.mem_keys_iff_ne.1 hk
      rw [h3] at this
      by_cases hkS : k ∈ S
      · exact hSL k hkS
      · rw [if_neg hkS] at this; exact absurd rfl this
    obtain ⟨p, l, e1, e2, e3, e4, e5⟩ := finish_some h2 hm hL2 hk
    exact ⟨p, e1, ⟨_, _, h4, (h1 (some L)).trans e1⟩, Or.inr (by rw [e3]; rfl), e5.trans hfull⟩

/-! ## Product -/

/-- The two operands can be multiplied. -/
def SameKind (a b : Perm) : Prop :=
  a.neutral = true ∨ b.neutral = true ∨ a.perilen.isSome = b.perilen.isSome

theorem mem_broadenSub {small : List Nat} {l r x : Nat} (hs : ∀ k ∈ small, k < l) :
    x ∈ broadenSub small l r ↔ x < r * l ∧ x % l ∈ small := by
  unfold broadenSub
  rw [List.mem_dedup, List.mem_flatMap]
  constructor
  · rintro ⟨i, hi, hx⟩
    obtain ⟨k, hk, rfl⟩ := List.mem_map.1 hx
    rw [List.mem_range] at hi
    have hkl := hs k hk
    refine ⟨?_, ?_⟩
    · have : (i + 1) * l ≤ r * l := Nat.mul_le_mul_right _ hi
      rw [Nat.succ_mul] at this
      omega
    · rw [Nat.add_comm, Nat.add_mul_mod_self_right, Nat.mod_eq_of_lt hkl]; exact hk
  · rintro ⟨h1, h2⟩
    refine ⟨x / l, ?_, ?_⟩
    · rw [List.mem_range]
      exact (Nat.div_lt_iff_lt_mul (Nat.lt_of_le_of_lt (Nat.zero_le _) (hs _ h2))).2 h1
    · rw [List.mem_map]
      exact ⟨x % l, h2, by rw [Nat.mul_comm]; exact Nat.div_add_mod x l⟩

theorem WF.mem_keys_mod {p : Perm} (hw : WF p) {l : Nat} (h : p.perilen = some l) (i : Nat) :
    i % l ∈ p.mapping.keys ↔ p.get i ≠ i := by
  have h2 := hw.per_ge l h
  rw [hw.good.mem_keys_iff_ne, get_periodic hw h, per]
  have := Nat.mod_add_div i l
  constructor
  · intro h1 h3; apply h1; omega
  · intro h1 h3; apply h1; omega

theorem WF.get_lt {p : Perm} (hw : WF p) {l : Nat} (h : p.perilen = some l) {n : Nat} (hn : l ∣ n) {i : Nat}
    (hi : i < n) : p.get i < n := by
  obtain ⟨k, rfl⟩ := hn
  have h2 := hw.per_ge l h
  have hl : 0 < l := by omega
  rw [get_periodic hw h, per]
  have h3 := hw.good.per_lt (hw.per_lt l h) (i % l) (Nat.mod_lt _ hl)
  have h4 : i / l < k := by rw [Nat.div_lt_iff_lt_mul hl, Nat.mul_comm]; exact hi
  have : l * (i / l + 1) ≤ l * k := Nat.mul_le_mul_left _ h4
  rw [Nat.mul_add, Nat.mul_one] at this
  omega

theorem WF.shift_of_dvd {p : Perm} (hw : WF p) {l : Nat} (h : p.perilen = some l) {n : Nat} (hn : l ∣ n) :
    Shift p.get n := by
  obtain ⟨k, rfl⟩ := hn
  rw [Nat.mul_comm]
  exact (hw.shift h).mul k

theorem mul_spec {a b : Perm} (ha : Constructed a) (hb : Constructed b) (hk : SameKind a b) :
    ∃ c, a.mul b = .ok c ∧ Constructed c ∧ c.get = a.get ∘ b.get ∧
      (a.perilen = none → b.perilen = none → c.perilen = none) ∧
      ((a.neutral = true ∨ a.perilen.isSome = true) → (b.neutral = true ∨ b.perilen.isSome = true) →
        (c.neutral = true ∨ c.perilen.isSome = true)) := by
  have wa := ha.wf
  have wb := hb.wf
  unfold Perm.mul
  split
  · rename_i hn
    refine ⟨b, rfl, hb, ?_, fun _ h => h, fun _ h => h⟩
    funext i; simp [wa.neutral_iff_get.1 hn]
  · rename_i hna
    split
    · rename_i hn
      refine ⟨a, rfl, ha, ?_, fun h _ => h, fun h _ => h⟩
      funext i; simp [wb.neutral_iff_get.1 hn]
    · rename_i hnb
      cases hpa : a.perilen with
      | none =>
        cases hpb : b.perilen with
        | some lb => rcases hk with h | h | h <;> simp_all
        | none =>
          have hma : ∀ i, i ∈ a.mapping.keys ↔ a.get i ≠ i := by
            intro i; rw [get_finite wa hpa]; exact wa.good.mem_keys_iff_ne
          have hmb : ∀ i, i ∈ b.mapping.keys ↔ b.get i ≠ i := by
            intro i; rw [get_finite wb hpb]; exact wb.good.mem_keys_iff_ne
          have hmem : ∀ i, i ∈ (a.moved ++ b.moved).dedup ↔ a.get i ≠ i ∨ b.get i ≠ i := by
            intro i; rw [List.mem_dedup, List.mem_append]; exact or_congr (hma i) (hmb i)
          obtain ⟨p, e1, e2, e3, e4⟩ := mkPerm_tab_none (S := (a.moved ++ b.moved).dedup) (List.nodup_dedup _)
            (f := a.get ∘ b.get) (wa.get_bijective.1.comp wb.get_bijective.1) (by
              intro i hi
              rw [hmem] at hi ⊢
              by_contra hc
              push Not at hc
              simp only [Function.comp] at hc
              have h1 : a.get (b.get i) = b.get i := wa.get_bijective.1 hc.1
              rw [h1] at hc
              have h2 : b.get i = i := wb.get_bijective.1 hc.2
              rw [h2] at h1
              rcases hi with hi | hi
              · exact hi h1
              · exact hi h2) (by
              intro i hi
              rw [hmem] at hi
              push Not at hi
              simp [hi.2, hi.1])
          exact ⟨p, e1, e2, e4, fun _ _ => e3, by simp [hna]⟩
      | some la =>
        cases hpb : b.perilen with
        | none => rcases hk with h | h | h <;> simp_all
        | some lb =>
          have ga := wa.per_ge la hpa
          have gb := wb.per_ge lb hpb
          have hbig : 0 < Nat.lcm la lb := Nat.lcm_pos (by omega) (by omega)
          have da : la ∣ Nat.lcm la lb := Nat.dvd_lcm_left la lb
          have db : lb ∣ Nat.lcm la lb := Nat.dvd_lcm_right la lb
          have hmem : ∀ i, i ∈ (broadenMoved la lb a.moved b.moved).2 ↔
              i < Nat.lcm la lb ∧ (a.get i ≠ i ∨ b.get i ≠ i) := by
            intro i
            unfold broadenMoved
            simp only
            rw [List.mem_dedup, List.mem_append, Perm.moved, Perm.moved, mem_broadenSub (wa.per_lt la hpa),
              mem_broadenSub (wb.per_lt lb hpb), Nat.div_mul_cancel da, Nat.div_mul_cancel db]
            rw [← wa.mem_keys_mod hpa, ← wb.mem_keys_mod hpb, and_or_left]
          obtain ⟨p, e1, e2, e3, e4⟩ := mkPerm_tab_some (S := (broadenMoved la lb a.moved b.moved).2)
            (by unfold broadenMoved; exact List.nodup_dedup _) (L := Nat.lcm la lb)
            (Nat.le_trans ga (Nat.le_of_dvd hbig da)) (fun i hi => ((hmem i).1 hi).1)
            (f := a.get ∘ b.get) (wa.get_bijective.1.comp wb.get_bijective.1) (by
              intro i hi
              rw [hmem] at hi ⊢
              refine ⟨wa.get_lt hpa da (wb.get_lt hpb db hi.1), ?_⟩
              by_contra hc
              push Not at hc
              simp only [Function.comp] at hc
              have h1 : a.get (b.get i) = b.get i := wa.get_bijective.1 hc.1
              rw [h1] at hc
              have h2 : b.get i = i := wb.get_bijective.1 hc.2
              rw [h2] at h1
              rcases hi.2 with hi | hi
              · exact hi h1
              · exact hi h2) (by
              intro i hi hi2
              rw [hmem] at hi2
              push Not at hi2
              have := hi2 hi
              simp [this.1, this.2]) (by
              intro i
              simp only [Function.comp]
              rw [wb.shift_of_dvd hpb db, wa.shift_of_dvd hpa da])
          exact ⟨p, e1, e2, e4, by simp, fun _ _ => e3⟩

theorem mul_error {a b : Perm} (hk : ¬ SameKind a b) : a.mul b = .error .otherPerilenMismatch := by
  unfold SameKind at hk
  push Not at hk
  obtain ⟨h1, h2, h3⟩ := hk
  unfold Perm.mul
  rw [if_neg (by simpa using h1), if_neg (by simpa using h2)]
  cases ha : a.perilen <;> cases hb : b.perilen <;> simp_all

/-! ## Inverse -/

theorem get?_swap {m : Dict Nat Nat} (hg : Good m) :
    Good (m.map (fun kv => (kv.2, kv.1))) ∧
      (∀ i, dictFun (m.map (fun kv => (kv.2, kv.1))) (dictFun m i) = i) := by
  have hk : Dict.keys (m.map (fun kv => (kv.2, kv.1))) = m.values := by
    unfold Dict.keys Dict.values; rw [List.map_map]; rfl
  have hv : Dict.values (m.map (fun kv => (kv.2, kv.1))) = m.keys := by
    unfold Dict.keys Dict.values; rw [List.map_map]; rfl
  have hn : (Dict.keys (m.map (fun kv => (kv.2, kv.1)))).Nodup := by
    rw [hk]; exact hg.perm.nodup_iff.1 hg.nodup
  refine ⟨⟨hn, ?_, ?_⟩, ?_⟩
  · rw [hk, hv]; exact hg.perm.symm
  · intro kv hkv
    obtain ⟨x, hx, rfl⟩ := List.mem_map.1 hkv
    exact Ne.symm (hg.nofix x hx)
  · intro i
    by_cases hi : i ∈ m.keys
    · apply dictFun_of_mem
      rw [Dict.get?_iff_mem hn, List.mem_map]
      exact ⟨(i, dictFun m i), (Dict.get?_iff_mem hg.nodup).1 (get?_eq_dictFun hi), rfl⟩
    · rw [dictFun_of_not_mem hi]
      apply dictFun_of_not_mem
      rw [hk, ← hg.perm.mem_iff]
      exact hi

theorem inverse_spec {p : Perm} (hp : Constructed p) :
    ∃ q, p.inverse = .ok q ∧ Constructed q ∧ q.perilen = p.perilen ∧ (q.neutral = p.neutral) ∧
      (∀ i, q.get (p.get i) = i) ∧ (∀ i, p.get (q.get i) = i) := by
  have wp := hp.wf
  obtain ⟨g1, g2⟩ := get?_swap wp.good
  have hval : (Arg.dict (Dict.ofPairs (p.mapping.map (fun kv => (kv.2, kv.1))))).Valid := by
    rw [Dict.ofPairs_of_nodup g1.nodup]; exact g1.nodup
  obtain ⟨m, m1, m2, m3⟩ := argMapping_dict (d := p.mapping.map (fun kv => (kv.2, kv.1))) g1.nodup g1.perm
  have hmk : ∀ l, mkPerm (.dict (Dict.ofPairs (p.mapping.map (fun kv => (kv.2, kv.1))))) l = finish m l := by
    intro l; rw [Dict.ofPairs_of_nodup g1.nodup]; unfold mkPerm; rw [m1]
  rw [← m3] at g2
  have hmm : ∀ i, i ∈ m.keys ↔ i ∈ p.mapping.keys := by
    intro i
    rw [m2.mem_keys_iff_ne, wp.good.mem_keys_iff_ne, not_iff_not]
    constructor
    · intro h
      obtain ⟨j, hj⟩ := wp.good.surjective i
      have := g2 j
      rw [hj, h] at this
      rw [this, hj, this]
    · intro h; have := g2 i; rw [h] at this; exact this
  unfold Perm.inverse
  rw [hmk]
  have fin : ∀ q : Perm, WF q → (∀ i, q.get (p.get i) = i) → (∀ i, p.get (q.get i) = i) := by
    intro q _ h i
    obtain ⟨j, rfl⟩ := wp.get_bijective.2 i
    rw [h]
  have neu : ∀ q : Perm, WF q → (∀ i, q.get (p.get i) = i) → q.neutral = p.neutral := by
    intro q hq h
    rw [Bool.eq_iff_iff, hq.neutral_iff_get, wp.neutral_iff_get]
    constructor
    · intro h1 i; have := h i; rw [h1] at this; exact this
    · intro h1 i; have := h i; rw [h1] at this; exact this
  cases hper : p.perilen with
  | none =>
    obtain ⟨q, e1, e2, e3, e4⟩ := finish_none m2
    have key : ∀ i, q.get (p.get i) = i := by rw [e4, get_finite wp hper]; exact g2
    exact ⟨q, e1, ⟨_, _, hval, (hmk none).trans e1⟩, e3, neu q e2 key, key, fin q e2 key⟩
  | some l =>
    have hne : m ≠ [] := by
      intro h
      have h1 : p.mapping = [] := by
        by_contra hc
        obtain ⟨k, hk⟩ := List.exists_mem_of_ne_nil _ (keys_ne_nil hc)
        have := (hmm k).2 hk
        rw [h] at this; simp at this
      have := (wp.neutral_perilen (wp.neutral_iff.2 h1)).1
      rw [hper] at this; cases this
    have h2 := wp.per_ge l hper
    have hlt : ∀ k ∈ m.keys, k < l := fun k hk => wp.per_lt l hper k ((hmm k).1 hk)
    obtain ⟨q, l', e1, e2, e3, e4, e5⟩ := finish_some m2 hne h2 hlt
    have key : ∀ i, q.get (p.get i) = i := by
      intro i
      rw [e5, get_periodic wp hper]
      unfold per
      have hb := wp.good.per_lt (wp.per_lt l hper) (i % l) (Nat.mod_lt _ (by omega))
      rw [Nat.add_mul_mod_self_left, Nat.add_mul_div_left _ _ (by omega), Nat.mod_eq_of_lt hb,
        Nat.div_eq_of_lt hb, g2, Nat.zero_add]
      exact Nat.mod_add_div i l
    refine ⟨q, e1, ⟨_, _, hval, (hmk _).trans e1⟩, ?_, neu q e2 key, key, fin q e2 key⟩
    rw [e3]
    congr 1
    apply Nat.dvd_antisymm e4
    apply wp.perilen_dvd hper
    intro i
    apply e2.get_bijective.1
    rw [key, e2.shift e3, key]

end Verif.P
