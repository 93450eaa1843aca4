import Mathlib.Data.Int.Bitwise
import Verif.Py.Lemmas
import Verif.A.Logic2

/-! # Model of a/multigrade_bitwise, a/subdict, a/default_to_regular_dict and a/pretty_signs; property C151 -/

namespace Verif.A
open Verif.Py

/-! ## Bitwise operators with many arguments -/

/-- What `multigrade_bitwise` returns: an integer, or a list. -/
inductive BitwiseResult
  | int (n : Int)
  | list (l : List Int)
deriving DecidableEq, Repr

/-- a/multigrade_bitwise/__init__.py:10-17; python's `&`, `|` and `^` of integers (two's complement) -/
def bitwiseOperator (operator : String) : Except Err (Int → Int → Int) :=
  if operator = "and" then .ok Int.land
  else if operator = "or" then .ok Int.lor
  else if operator = "xor" then .ok Int.xor
  else .error .argValue

/-- a/multigrade_bitwise/__init__.py:6-30 -/
def multigradeBitwise (integers : List Int) (operator : String) : Except Err BitwiseResult := do
  let op ← bitwiseOperator operator
  match integers with
  | [] => pure (.list integers)
  | [_] => pure (.list integers)
  | first :: rest => pure (.int (rest.foldl op first))

theorem int_ext {m n : Int} (h : ∀ k, m.testBit k = n.testBit k) : m = n := by
  cases m with
  | ofNat m =>
    cases n with
    | ofNat n => exact congrArg Int.ofNat (Nat.eq_of_testBit_eq h)
    | negSucc n =>
      have := h (m + n)
      simp only [Int.testBit] at this
      rw [Nat.testBit_lt_two_pow (lt_of_lt_of_le Nat.lt_two_pow_self (Nat.pow_le_pow_right (by omega) (by omega))),
        Nat.testBit_lt_two_pow (lt_of_lt_of_le Nat.lt_two_pow_self (Nat.pow_le_pow_right (by omega) (by omega)))] at this
      cases this
  | negSucc m =>
    cases n with
    | ofNat n =>
      have := h (m + n)
      simp only [Int.testBit] at this
      rw [Nat.testBit_lt_two_pow (lt_of_lt_of_le Nat.lt_two_pow_self (Nat.pow_le_pow_right (by omega) (by omega))),
        Nat.testBit_lt_two_pow (lt_of_lt_of_le Nat.lt_two_pow_self (Nat.pow_le_pow_right (by omega) (by omega)))] at this
      cases this
    | negSucc n =>
      refine congrArg Int.negSucc (Nat.eq_of_testBit_eq fun k => ?_)
      have := h k
      simpa [Int.testBit] using this

theorem bits_and (k : Nat) : ∀ (l : List Int) (x : Int), ((l.foldl Int.land x).testBit k = true ↔ ∀ y ∈ x :: l, y.testBit k = true)
  | [], x => by simp
  | y :: l, x => by
    rw [List.foldl_cons, bits_and k l]
    simp only [List.forall_mem_cons, Int.testBit_land, Bool.and_eq_true, and_assoc]

theorem bits_or (k : Nat) : ∀ (l : List Int) (x : Int), ((l.foldl Int.lor x).testBit k = true ↔ ∃ y ∈ x :: l, y.testBit k = true)
  | [], x => by simp
  | y :: l, x => by
    rw [List.foldl_cons, bits_or k l]
    simp only [List.exists_mem_cons_iff, Int.testBit_lor, Bool.or_eq_true, or_assoc]

theorem bits_xor (k : Nat) : ∀ (l : List Int) (x : Int), ((l.foldl Int.xor x).testBit k = true ↔ ((x :: l).filter fun y => y.testBit k).length % 2 = 1)
  | [], x => by by_cases h : x.testBit k = true <;> simp [h]
  | y :: l, x => by
    rw [List.foldl_cons, bits_xor k l]
    simp only [List.filter_cons, Int.testBit_lxor]
    cases x.testBit k <;> cases y.testBit k <;> simp
    omega

/-- **C151.** With at least two integers, the binary digits of the result are: for `'and'` those of all of them, for `'or'` those of any of them, and for `'xor'` those of an
odd number of them. -/
theorem C151_bitwise (l : List Int) (hl : 2 ≤ l.length) :
    (∃ n, multigradeBitwise l "and" = .ok (.int n) ∧ ∀ k, (n.testBit k = true ↔ ∀ y ∈ l, y.testBit k = true)) ∧
    (∃ n, multigradeBitwise l "or" = .ok (.int n) ∧ ∀ k, (n.testBit k = true ↔ ∃ y ∈ l, y.testBit k = true)) ∧
    (∃ n, multigradeBitwise l "xor" = .ok (.int n) ∧ ∀ k, (n.testBit k = true ↔ (l.filter fun y => y.testBit k).length % 2 = 1)) := by
  match l, hl with
  | x :: y :: l, _ => exact ⟨⟨_, rfl, fun k => bits_and k _ _⟩, ⟨_, rfl, fun k => bits_or k _ _⟩, ⟨_, rfl, fun k => bits_xor k _ _⟩⟩

/-- **C151.** The result does not depend on the order of two or more integers. -/
theorem C151_bitwise_order (l m : List Int) (hlm : l.Perm m) (hl : 2 ≤ l.length) (operator : String) : multigradeBitwise l operator = multigradeBitwise m operator := by
  obtain ⟨⟨a, ha, ha'⟩, ⟨b, hb, hb'⟩, ⟨c, hc, hc'⟩⟩ := C151_bitwise l hl
  obtain ⟨⟨d, hd, hd'⟩, ⟨e, he, he'⟩, ⟨f, hf, hf'⟩⟩ := C151_bitwise m (hlm.length_eq ▸ hl)
  by_cases h1 : operator = "and"
  · subst h1
    rw [ha, hd]
    refine congrArg (fun n => Except.ok (BitwiseResult.int n)) (int_ext fun k => Bool.eq_iff_iff.2 ?_)
    rw [ha', hd']
    exact forall_congr' fun y => by rw [hlm.mem_iff]
  by_cases h2 : operator = "or"
  · subst h2
    rw [hb, he]
    refine congrArg (fun n => Except.ok (BitwiseResult.int n)) (int_ext fun k => Bool.eq_iff_iff.2 ?_)
    rw [hb', he']
    exact exists_congr fun y => by rw [hlm.mem_iff]
  by_cases h3 : operator = "xor"
  · subst h3
    rw [hc, hf]
    refine congrArg (fun n => Except.ok (BitwiseResult.int n)) (int_ext fun k => Bool.eq_iff_iff.2 ?_)
    rw [hc', hf', (hlm.filter _).length_eq]
  · unfold multigradeBitwise bitwiseOperator
    rw [if_neg h1, if_neg h2, if_neg h3]
    rfl

/-- **C151.** Another operator is an `ArgValueError`.  With less than two integers, the result is not an integer, but the list of the arguments. -/
theorem C151_bitwise_few (l : List Int) (operator : String) :
    (operator ∉ ["and", "or", "xor"] → multigradeBitwise l operator = .error .argValue) ∧
    (operator ∈ ["and", "or", "xor"] → l.length < 2 → multigradeBitwise l operator = .ok (.list l)) := by
  constructor
  · intro h
    simp only [List.mem_cons, List.not_mem_nil, or_false, not_or] at h
    unfold multigradeBitwise bitwiseOperator
    rw [if_neg h.1, if_neg h.2.1, if_neg h.2.2]
    rfl
  · intro h hl
    have : ∃ op, bitwiseOperator operator = .ok op := by
      simp only [List.mem_cons, List.not_mem_nil, or_false] at h
      rcases h with rfl | rfl | rfl <;> exact ⟨_, rfl⟩
    obtain ⟨op, hop⟩ := this
    unfold multigradeBitwise
    rw [hop]
    match l, hl with
    | [], _ => rfl
    | [x], _ => rfl

example : multigradeBitwise [12, 10, 7] "xor" = .ok (.int 1) ∧ multigradeBitwise [-2, 7, 13] "and" = .ok (.int 4) ∧ multigradeBitwise [-8, 1, 2] "or" = .ok (.int (-5)) ∧
    multigradeBitwise [5] "or" = .ok (.list [5]) := by decide +kernel

/-! ## Changed copies of a dictionary -/

variable {α β : Type} [DecidableEq α]

/-- `result[key] = original[key]` for the keys of a set, in the order of iteration (a/subdict/__init__.py:14-15) -/
def copyKeys (original : Dict α β) : List α → Dict α β → Except Err (Dict α β)
  | [], result => .ok result
  | key :: keys, result => match original.get? key with
    | some val => copyKeys original keys (result.set key val)
    | none => .error .keyError

/-- a/subdict/__init__.py:8-12; the keys of a set, in some order -/
def keptKeys (original : Dict α β) (drop : Option (List α)) (fresh : Option (Dict α β)) : List α :=
  let kept := original.keys
  let kept := match drop with
    | some drop => kept.filter fun k => ! drop.contains k
    | none => kept
  match fresh with
  | some fresh => kept.filter fun k => ! fresh.keys.contains k
  | none => kept

/-- a/subdict/__init__.py:4-20.  `order` puts the kept keys in the order in which python iterates over the set. -/
def subdict (original : Dict α β) (drop : Option (List α)) (fresh : Option (Dict α β)) (order : List α → List α) : Except Err (Dict α β) := do
  let result ← copyKeys original (order (keptKeys original drop fresh)) []
  match fresh with
  | some fresh => pure (fresh.foldl (fun result item => result.set item.1 item.2) result)
  | none => .error .attributeError

theorem mem_keptKeys {original : Dict α β} {drop : Option (List α)} {fresh : Option (Dict α β)} {k : α} :
    k ∈ keptKeys original drop fresh ↔ k ∈ original.keys ∧ (∀ d, drop = some d → k ∉ d) ∧ (∀ f, fresh = some f → k ∉ f.keys) := by
  unfold keptKeys
  cases drop <;> cases fresh <;> simp
  tauto

theorem copyKeys_ok (original : Dict α β) : ∀ (keys : List α) (result : Dict α β), (∀ k ∈ keys, k ∈ original.keys) →
    ∃ r, copyKeys original keys result = .ok r ∧ (∀ k, r.get? k = if k ∈ keys then original.get? k else result.get? k) ∧ (result.keys.Nodup → r.keys.Nodup)
  | [], result, _ => ⟨result, rfl, by simp, id⟩
  | key :: keys, result, h => by
    obtain ⟨v, hv⟩ := Option.isSome_iff_exists.1 (Dict.get?_isSome.2 (h key (by simp)))
    obtain ⟨r, hr, hg, hn⟩ := copyKeys_ok original keys (result.set key v) fun k hk => h k (by simp [hk])
    refine ⟨r, by simp only [copyKeys, hv, hr], ?_, fun hn' => hn (Dict.nodup_keys_set hn' _ _)⟩
    intro k
    rw [hg, Dict.get?_set]
    by_cases hk : k = key
    · subst hk; simp [hv]
    · have : ¬ key = k := fun e => hk e.symm
      simp [hk, this]

/-- **C151.** The copy has the items of `fresh`, and those items of the original whose keys are neither dropped nor fresh.  It does not matter in which order python iterates over
the kept keys. -/
theorem C151_subdict (original fresh : Dict α β) (hf : fresh.keys.Nodup) (drop : Option (List α)) (order : List α → List α) (ho : ∀ l, (order l).Perm l) :
    ∃ r, subdict original drop (some fresh) order = .ok r ∧ r.keys.Nodup ∧
      ∀ k, r.get? k = if k ∈ fresh.keys then fresh.get? k else if k ∈ drop.getD [] then none else original.get? k := by
  obtain ⟨c, hc, hg, hn⟩ := copyKeys_ok original (order (keptKeys original drop (some fresh))) [] fun k hk => (mem_keptKeys.1 ((ho _).mem_iff.1 hk)).1
  have hfold : ∀ (f : Dict α β) (c : Dict α β), c.keys.Nodup → (f.foldl (fun result item => result.set item.1 item.2) c).keys.Nodup := by
    intro f
    induction f with
    | nil => intro c h; exact h
    | cons p f ih => intro c h; exact ih _ (Dict.nodup_keys_set h _ _)
  refine ⟨_, by unfold subdict; rw [hc]; rfl, hfold _ _ (hn (by simp [Dict.keys])), ?_⟩
  intro k
  have hget : ∀ (f : Dict α β) (c : Dict α β), f.keys.Nodup → (f.foldl (fun result item => result.set item.1 item.2) c).get? k = if k ∈ f.keys then f.get? k else c.get? k := by
    intro f
    induction f with
    | nil => intro c _; simp [Dict.keys]
    | cons p f ih =>
      intro c hn
      have hn' : p.1 ∉ Dict.keys f ∧ (Dict.keys f).Nodup := by simpa [Dict.keys] using hn
      rw [List.foldl_cons, ih _ hn'.2, Dict.get?_cons, Dict.get?_set]
      have hk : k ∈ Dict.keys (p :: f) ↔ k = p.1 ∨ k ∈ Dict.keys f := by simp [Dict.keys]
      by_cases h1 : k = p.1
      · subst h1; rw [if_neg hn'.1, if_pos rfl, if_pos (hk.2 (Or.inl rfl)), if_pos rfl]
      · have h1' : ¬ p.1 = k := fun e => h1 e.symm
        by_cases h2 : k ∈ Dict.keys f
        · rw [if_pos h2, if_pos (hk.2 (Or.inr h2)), if_neg h1']
        · rw [if_neg h2, if_neg h1', if_neg fun h => (hk.1 h).elim h1 h2]
  rw [hget _ _ hf]
  by_cases h1 : k ∈ fresh.keys
  · rw [if_pos h1, if_pos h1]
  · rw [if_neg h1, if_neg h1, hg]
    have hm : k ∈ order (keptKeys original drop (some fresh)) ↔ k ∈ original.keys ∧ k ∉ drop.getD [] := by
      rw [(ho _).mem_iff, mem_keptKeys]
      cases drop <;> simp [h1]
    by_cases h2 : k ∈ drop.getD []
    · rw [if_pos h2, if_neg (by rw [hm]; tauto)]; rfl
    · rw [if_neg h2]
      by_cases h3 : k ∈ original.keys
      · rw [if_pos (hm.2 ⟨h3, h2⟩)]
      · rw [if_neg (by rw [hm]; tauto), Dict.get?_eq_none.2 h3]; rfl

/-- **C151.** `fresh` is declared as optional, but without it the call always ends with an `AttributeError`. -/
theorem C151_subdict_without_fresh (original : Dict α β) (drop : Option (List α)) (order : List α → List α) (ho : ∀ l, (order l).Perm l) :
    subdict original drop none order = .error .attributeError := by
  obtain ⟨c, hc, _⟩ := copyKeys_ok original (order (keptKeys original drop none)) [] fun k hk => (mem_keptKeys.1 ((ho _).mem_iff.1 hk)).1
  unfold subdict
  rw [hc]
  rfl

example : subdict [(1, 11), (2, 22), (4, 44)] (some [1]) (some [(2, 222), (6, 666)]) id = .ok [(4, 44), (2, 222), (6, 666)] ∧
    subdict [(1, 11), (2, 22), (4, 44)] none (some [(2, 222), (6, 666)]) List.reverse = .ok [(4, 44), (1, 11), (2, 222), (6, 666)] := by decide

/-! ## Nested dictionaries with default values -/

/-- Nested dictionaries, each of them a `defaultdict` or a regular one, of things that are neither.  Keys are integers, in insertion order. -/
inductive Tree
  | leaf (v : Int)
  | regular (d : List (Int × Tree))
  | default (d : List (Int × Tree))

mutual
/-- a/default_to_regular_dict/__init__.py:9-12 -/
def defaultToRegular : Tree → Tree
  | .default d => .regular (defaultToRegularItems d)
  | t => t

/-- the dictionary comprehension in a/default_to_regular_dict/__init__.py:11 -/
def defaultToRegularItems : List (Int × Tree) → List (Int × Tree)
  | [] => []
  | (k, v) :: d => (k, defaultToRegular v) :: defaultToRegularItems d
end

/-- The value under a key; `none` if there is none. -/
def Tree.get (t : Tree) (k : Int) : Option Tree := match t with
  | .leaf _ => none
  | .regular d => Dict.get? d k
  | .default d => Dict.get? d k

/-- The value at the end of a path of keys. -/
def Tree.at (t : Tree) : List Int → Option Tree
  | [] => some t
  | k :: path => (t.get k).bind fun u => u.at path

/-- a `defaultdict` -/
def Tree.IsDefault (t : Tree) : Prop := ∃ d, t = .default d

/-- a regular dictionary -/
def Tree.IsRegular (t : Tree) : Prop := ∃ d, t = .regular d

/-- The keys of a dictionary, in insertion order. -/
def Tree.keys : Tree → List Int
  | .leaf _ => []
  | .regular d => d.map Prod.fst
  | .default d => d.map Prod.fst

theorem regular_items_get (k : Int) : ∀ d : List (Int × Tree), Dict.get? (defaultToRegularItems d) k = (Dict.get? d k).map defaultToRegular
  | [] => rfl
  | (j, v) :: d => by
    rw [defaultToRegularItems, Dict.get?_cons, Dict.get?_cons]
    by_cases h : j = k
    · simp [h]
    · simp only [h, if_false]; exact regular_items_get k d

theorem regular_keys : ∀ d : List (Int × Tree), (defaultToRegularItems d).map Prod.fst = d.map Prod.fst
  | [] => rfl
  | (j, v) :: d => by rw [defaultToRegularItems, List.map_cons, regular_keys d]; rfl

/-- **C151.** A path of keys leads to something in the result exactly if it does so in the argument.  The keys there are the same, and a leaf is the same.  A `defaultdict` that is reached
through `defaultdict`s has become a regular dictionary. -/
theorem C151_regular_dict (path : List Int) : ∀ t : Tree,
    (((defaultToRegular t).at path).isSome = (t.at path).isSome) ∧
    (∀ v, (defaultToRegular t).at path = some (.leaf v) ↔ t.at path = some (.leaf v)) ∧
    (∀ u u', t.at path = some u → (defaultToRegular t).at path = some u' → u'.keys = u.keys) ∧
    ((∀ before after, path = before ++ after → ∀ u, t.at before = some u → ¬ u.IsRegular) →
      ∀ u', (defaultToRegular t).at path = some u' → ¬ u'.IsDefault) := by
  induction path with
  | nil =>
    intro t
    refine ⟨rfl, ?_, ?_, ?_⟩
    · intro v
      cases t <;> simp [defaultToRegular, Tree.at]
    · intro u u' h h'
      cases h
      cases h'
      cases t <;> simp [defaultToRegular, Tree.keys, regular_keys]
    · intro h u' hu'
      cases hu'
      have := h [] [] rfl t rfl
      rintro ⟨d, hd⟩
      cases t with
      | leaf v => simp [defaultToRegular] at hd
      | regular d' => exact this ⟨d', rfl⟩
      | default d' => simp [defaultToRegular] at hd
  | cons k path ih =>
    intro t
    cases t with
    | leaf v =>
      have : (defaultToRegular (.leaf v)) = .leaf v := by simp [defaultToRegular]
      rw [this]
      refine ⟨rfl, fun _ => Iff.rfl, ?_, ?_⟩
      · intro u u' h _; simp [Tree.at, Tree.get] at h
      · intro _ u' h; simp [Tree.at, Tree.get] at h
    | regular d =>
      have : (defaultToRegular (.regular d)) = .regular d := by simp [defaultToRegular]
      rw [this]
      refine ⟨rfl, fun _ => Iff.rfl, ?_, ?_⟩
      · intro u u' h h'; rw [h] at h'; cases h'; rfl
      · intro h _ _
        exact absurd ⟨d, rfl⟩ (h [] (k :: path) rfl _ rfl)
    | default d =>
      have e : (defaultToRegular (.default d)).at (k :: path) = ((Dict.get? d k).map defaultToRegular).bind fun u => u.at path := by
        simp only [defaultToRegular, Tree.at, Tree.get]
        rw [regular_items_get]
      have e' : (Tree.default d).at (k :: path) = (Dict.get? d k).bind fun u => u.at path := rfl
      rw [e, e']
      cases hg : Dict.get? d k with
      | none => simp
      | some u =>
        obtain ⟨i1, i2, i3, i4⟩ := ih u
        simp only [Option.map_some, Option.bind_some]
        refine ⟨i1, i2, i3, ?_⟩
        intro h
        refine i4 fun before after hb w hw => ?_
        refine h (k :: before) after (by rw [hb]; rfl) w ?_
        rw [show (Tree.default d).at (k :: before) = (Dict.get? d k).bind fun u => u.at before from rfl, hg]
        exact hw

/-- **C151.** A regular dictionary is returned as it is, also if it contains a `defaultdict`. -/
theorem C151_regular_unchanged (d : List (Int × Tree)) : defaultToRegular (.regular d) = .regular d := by simp [defaultToRegular]

example : (defaultToRegular (.default [(1, .default [(5, .leaf 7)]), (2, .regular [(3, .default [])])])).at [1, 5] = some (.leaf 7) ∧
    ((defaultToRegular (.default [(1, .default [(5, .leaf 7)]), (2, .regular [(3, .default [])])])).at [1] = some (.regular [(5, .leaf 7)])) ∧
    ((defaultToRegular (.default [(1, .default [(5, .leaf 7)]), (2, .regular [(3, .default [])])])).at [2, 3] = some (.default [])) := by
  simp [defaultToRegular, defaultToRegularItems, Tree.at, Tree.get, Dict.get?]

/-! ## Spaces in place of plus signs -/

/-- `string.replace(old, new)` for a non-empty `old`: the leftmost occurrences, without overlap -/
def replaceAll (old new : List Char) (s : List Char) : List Char :=
  match s with
  | [] => []
  | c :: cs =>
    if old ≠ [] ∧ old.isPrefixOf (c :: cs) then new ++ replaceAll old new ((c :: cs).drop old.length)
    else c :: replaceAll old new cs
termination_by s.length
decreasing_by
  · simp only [List.length_drop, List.length_cons]
    have : old.length ≠ 0 := by simp_all
    omega
  · simp

/-- a/pretty_signs/__init__.py:1 -/
def isFigure (c : Char) : Bool := "0123456789".toList.contains c

/-- a/pretty_signs/__init__.py:11-15; the remaining characters -/
def signsLoop : Char → List Char → List Char
  | _, [] => []
  | last, char :: rest =>
    if isFigure char && (! isFigure last && last ≠ '-') then ' ' :: char :: signsLoop char rest else char :: signsLoop char rest

/-- a/pretty_signs/__init__.py:4-17 for an argument with the given string -/
def prettySigns (string : List Char) : List Char :=
  let rawString := replaceAll "False".toList ['○'] (replaceAll "True".toList ['●'] string)
  signsLoop ' ' rawString

end Verif.A
