import Verif.Boolf.Model29
import Verif.Boolf.Props65

/-!
# C158: lemmas on the parts of `ec_clan_matrix_wiki`
-/

namespace Verif.BF
open Verif.Py Verif.BV Verif.P Verif.W Verif.SP
open Verif.A hiding Mat

/-! ## the format -/

/-- an entry of a signed permutation: negated entries are marked, and shown without the negation -/
def entryText (e : Int) : List Char :=
  if e < 0 then "<span class=\"entry negated\">".toList ++ natStr (-e - 1).toNat ++ "</span>".toList
  else "<span class=\"entry\">".toList ++ natStr e.toNat ++ "</span>".toList

/-- a signed permutation: the icon of the permutation, and the sequence -/
def sigpermText (perm : Nat) (sequence : List Int) : List Char :=
  "<span class=\"icon-and-sequence\">".toList ++ "[[File:Finite permutation number ".toList ++ natStr perm ++ ".svg|20px|link=]]".toList ++
    "<span class=\"sequence\">(".toList ++ List.intercalate ", ".toList (sequence.map entryText) ++ ")</span>".toList ++ "</span>".toList

/-- the numbers of a list, each with the information if its binary weight is different from that of the number before -/
def withSteps (l : List Nat) : List (Nat × Bool) :=
  (List.range l.length).map fun i => (l.getD i 0, decide (0 < i ∧ weightOf (l.getD (i - 1) 0) ≠ weightOf (l.getD i 0)))

/-- the table of signed permutations in a cell: a row for each `keyneg` index, a column for each `valneg` index, and in the entries the signed permutations -/
def sigpermTable (keynegs valnegs : List Nat) (perms : Nat → Nat → List Nat) (sequence : Nat → Nat → List Int) : List Char :=
  "<div class=\"valneg-wrapper\">".toList ++ "<span class=\"number-icons\">".toList ++
    ((withSteps valnegs).flatMap fun v => (if v.2 then "[[File:1x1.png|2px|link=]]".toList else []) ++ "[[File:Cube vertex number ".toList ++ natStr v.1 ++ ".svg|20px|link=]]".toList) ++
    "</span>".toList ++ "<table class=\"valneg-hover\">".toList ++ "<tr class=\"top-labels\"><th class=\"left-label\"></th>".toList ++
    ((withSteps valnegs).flatMap fun v => "<th".toList ++ (if v.2 then " class=\"border-left\"".toList else []) ++ ">".toList ++
      "[[File:Cube vertex number ".toList ++ natStr v.1 ++ ".svg|20px|link=]]</th>".toList) ++ "</tr>".toList ++
    ((withSteps keynegs).flatMap fun k => "<tr".toList ++ (if k.2 then " class=\"border-top\"".toList else []) ++ ">".toList ++
      "<th class=\"left-label\">[[File:Cube vertex number ".toList ++ natStr k.1 ++ " in square.svg|20px|link=]]</th>".toList ++
      ((withSteps valnegs).flatMap fun v => "<td".toList ++ (if v.2 then " class=\"border-left\"".toList else []) ++ ">".toList ++
        List.intercalate "<br>".toList ((perms k.1 v.1).map fun p => sigpermText p (sequence v.1 p)) ++ "</td>".toList) ++ "</tr>".toList) ++
    "</table>".toList ++ "</div>".toList

/-! ## loops that put something between the parts -/

theorem separated {α : Type} (sep : List Char) (f : α → List Char) (n : Nat) : ∀ (l : List α) (i : Nat), i + l.length = n →
    ((l.zipIdx i).flatMap fun (x, i) => f x ++ if (i : Int) < (n : Int) - 1 then sep else []) = List.intercalate sep (l.map f)
  | [], _, _ => by simp [List.intercalate]
  | [x], i, h => by
    simp only [List.length_cons, List.length_nil] at h
    have : ¬ ((i : Int) < (n : Int) - 1) := by omega
    simp [List.intercalate, this]
  | x :: y :: l, i, h => by
    have ih := separated sep f n (y :: l) (i + 1) (by simp only [List.length_cons] at h ⊢; omega)
    rw [List.zipIdx_cons, List.flatMap_cons, ih]
    have : (i : Int) < (n : Int) - 1 := by simp only [List.length_cons] at h; omega
    simp [List.intercalate, this]

theorem intStr_logicAbs (e : Int) : intStr (logicAbs e) = if e < 0 then natStr (-e - 1).toNat else natStr e.toNat := by
  unfold logicAbs intStr inv
  by_cases h : e < 0
  · rw [if_pos h, if_pos h, if_neg (by omega)]
  · rw [if_neg h, if_neg h, if_neg h]

theorem sequenceHtml_eq (sequence : List Int) :
    sequenceHtml sequence = "<span class=\"sequence\">(".toList ++ List.intercalate ", ".toList (sequence.map entryText) ++ ")</span>".toList := by
  unfold sequenceHtml
  rw [← separated ", ".toList entryText sequence.length sequence 0 (by simp)]
  congr 3
  funext ⟨e, i⟩
  dsimp only
  rw [intStr_logicAbs]
  unfold entryText
  split <;> simp

theorem permHtml_eq (arity v count p i : Nat) (seq : List Int)
    (h : ∃ σ, SG.new { pair := some ((v : Int), (p : Int)) } = .ok σ ∧ σ.sequence (some arity) = .ok seq) :
    permHtml arity v count p i = .ok (sigpermText p seq ++ if (i : Int) < (count : Int) - 1 then "<br>".toList else []) := by
  obtain ⟨σ, s1, s2⟩ := h
  unfold permHtml
  rw [s1]
  simp only [bind, Except.bind]
  rw [s2]
  simp only [pure, Except.pure]
  have : "<span class=\"icon-and-sequence\">".toList ++ ("[[File:Finite permutation number ".toList ++ natStr p ++ ".svg|20px|link=]]".toList) ++ sequenceHtml seq ++
      "</span>".toList = sigpermText p seq := by
    rw [sequenceHtml_eq]
    unfold sigpermText
    simp only [List.append_assoc]
  rw [this]

theorem permsHtml_eq (arity v : Nat) (perms P : List Nat) (seq : Nat → List Int) (hP : sorted perms = P)
    (h : ∀ p ∈ P, ∃ σ, SG.new { pair := some ((v : Int), (p : Int)) } = .ok σ ∧ σ.sequence (some arity) = .ok (seq p)) :
    permsHtml arity v (some perms) = .ok (List.intercalate "<br>".toList (P.map fun p => sigpermText p (seq p))) := by
  unfold permsHtml
  dsimp only
  rw [hP, ← separated "<br>".toList (fun p => sigpermText p (seq p)) P.length P 0 (by simp)]
  have : (P.zipIdx.mapM fun x : Nat × Nat => permHtml arity v P.length x.1 x.2) =
      .ok (P.zipIdx.map fun x => sigpermText x.1 (seq x.1) ++ if (x.2 : Int) < (P.length : Int) - 1 then "<br>".toList else []) := by
    apply mapM_ok
    rintro ⟨p, i⟩ hx
    exact permHtml_eq _ _ _ _ _ _ (h p (List.fst_mem_of_mem_zipIdx hx))
  rw [this]
  rfl

/-! ## borders -/

theorem bordersLoop_spec : ∀ (ws : List Nat) (i : Nat) (last : Option Nat) (result : List Nat) (j : Nat),
    j ∈ bordersLoop ws i last result ↔ j ∈ result ∨ ∃ t w, j = i + t ∧ ws[t]? = some w ∧ ∃ v, (last :: ws.map some)[t]? = some (some v) ∧ v ≠ w
  | [], i, last, result, j => by simp [bordersLoop]
  | w :: ws, i, last, result, j => by
    rw [bordersLoop, bordersLoop_spec ws (i + 1) (some w)]
    have h1 : (j ∈ (if last.isSome && last ≠ some w then result ++ [i] else result)) ↔ j ∈ result ∨ j = i ∧ ∃ v, last = some v ∧ v ≠ w := by
      cases last with
      | none => simp
      | some v =>
        by_cases hv : v = w
        · simp [hv]
        · simp [hv]
    rw [h1, or_assoc]
    apply or_congr Iff.rfl
    constructor
    · rintro (⟨rfl, v, rfl, hv⟩ | ⟨t, w', rfl, h2, v, h3, h4⟩)
      · exact ⟨0, w, rfl, rfl, v, rfl, hv⟩
      · exact ⟨t + 1, w', by omega, by simpa using h2, v, by simpa using h3, h4⟩
    · rintro ⟨t, w', rfl, h2, v, h3, h4⟩
      cases t with
      | zero =>
        simp only [List.getElem?_cons_zero, Option.some.injEq] at h2 h3
        subst h2
        exact .inl ⟨rfl, v, h3, h4⟩
      | succ t => exact .inr ⟨t, w', by omega, by simpa using h2, v, by simpa using h3, h4⟩

theorem borders_iff (l : List Nat) {i : Nat} (hi : i < l.length) :
    i ∈ bordersLoop (l.map weightOf) 0 none [] ↔ 0 < i ∧ weightOf (l.getD (i - 1) 0) ≠ weightOf (l.getD i 0) := by
  rw [bordersLoop_spec]
  simp only [List.not_mem_nil, false_or, Nat.zero_add]
  cases i with
  | zero => simp
  | succ i =>
    have h1 : l[i]? = some l[i] := List.getElem?_eq_getElem (by omega)
    have h2 : l[i + 1]? = some l[i + 1] := List.getElem?_eq_getElem hi
    constructor
    · rintro ⟨t, w, rfl, h3, v, h4, h5⟩
      simp only [List.getElem?_map, h2, Option.map_some, Option.some.injEq, List.getElem?_cons_succ, h1] at h3 h4
      subst h3 h4
      refine ⟨by omega, ?_⟩
      simpa [List.getD, h1, h2] using h5
    · rintro ⟨_, h⟩
      refine ⟨i + 1, weightOf l[i + 1], rfl, by simp [h2], weightOf l[i], by simp [h1], ?_⟩
      simpa [List.getD, h1, h2] using h

theorem zipIdx_range (l : List Nat) : l.zipIdx = (List.range l.length).map fun i => (l.getD i 0, i) := by
  apply List.ext_getElem?
  intro i
  by_cases hi : i < l.length
  · simp [hi, List.getD]
  · simp [hi]

/-- a loop over a list with its places of borders is a loop over the list with its steps -/
theorem steps_flatMap (l : List Nat) (g : Nat → Bool → List Char) :
    (l.zipIdx.flatMap fun (x, j) => g x (decide (j ∈ bordersLoop (l.map weightOf) 0 none []))) = (withSteps l).flatMap fun s => g s.1 s.2 := by
  rw [zipIdx_range, withSteps, List.flatMap_map, List.flatMap_map]
  unfold List.flatMap
  congr 1
  apply List.map_congr_left
  intro i hi
  dsimp only
  congr 1
  rw [decide_eq_decide]
  exact borders_iff l (List.mem_range.1 hi)

theorem steps_mapM (l : List Nat) (act : Nat × Nat → Except Err (List Char)) (g : Nat → Bool → List Char)
    (h : ∀ x j, (x, j) ∈ l.zipIdx → act (x, j) = .ok (g x (decide (j ∈ bordersLoop (l.map weightOf) 0 none [])))) :
    ∃ parts, l.zipIdx.mapM act = .ok parts ∧ parts.flatten = (withSteps l).flatMap fun s => g s.1 s.2 := by
  refine ⟨l.zipIdx.map fun (x, j) => g x (decide (j ∈ bordersLoop (l.map weightOf) 0 none [])), mapM_ok (fun ⟨x, j⟩ hx => h x j hx), ?_⟩
  rw [← steps_flatMap]
  rfl

/-! ## sorting by weight -/

/-- the order of numbers by binary weight, and by size for the same weight -/
def WeightLt (x y : Nat) : Prop := weightOf x < weightOf y ∨ weightOf x = weightOf y ∧ x < y

theorem sortByWeight_spec {L : List Nat} (hne : L ≠ []) (hnd : L.Nodup) :
    ∃ K : List Nat, sortByWeight L = .ok (K.map weightOf, K) ∧ K.Perm L ∧ K.Pairwise WeightLt := by
  obtain ⟨K, k1, k2, k3⟩ := sort_pair weightOf hne
  refine ⟨K, ?_, k2, ?_⟩
  · unfold sortByWeight
    have : (L.mapM fun n : Nat => (do return (← BV.mk { intval := some (n : Int) }).weight : Except Err Nat)) = .ok (L.map weightOf) := by
      apply mapM_ok
      intro n _
      obtain ⟨b, b1, _⟩ := C26_intval_only n
      have hb : BV.mk { intval := some (n : Int) } = .ok b := b1
      simp only [hb, bind, Except.bind, pure, Except.pure, weight_mk hb]
    simp only [bind, Except.bind, pure, Except.pure] at this ⊢
    rw [this]
    simp only
    rw [k1]
    rfl
  · have hn : K.Nodup := k2.nodup_iff.2 hnd
    refine (k3.and hn).imp ?_
    rintro x y ⟨h | ⟨h, h'⟩, hxy⟩
    · exact .inl h
    · exact .inr ⟨h, lt_of_le_of_ne h' hxy⟩

/-! ## the entries of the table -/

theorem addTo_get {α β : Type} [DecidableEq α] [DecidableEq β] (d : Dict α (List β)) (k k' : α) (x : β) :
    ((addTo d k x).get? k').getD [] = if k' = k then (if x ∈ (d.get? k).getD [] then (d.get? k).getD [] else (d.get? k).getD [] ++ [x]) else (d.get? k').getD [] := by
  unfold addTo
  by_cases h : k' = k
  · subst h
    rw [if_pos rfl, Dict.get?_set, if_pos rfl]
    rfl
  · rw [if_neg h, Dict.get?_set, if_neg (Ne.symm h)]

theorem fillLoop_spec {K V : List Nat} (triples : List (Nat × Nat × Nat)) : ∀ (D : Dict (Nat × Nat) (List Nat)), (∀ t ∈ triples, t.1 ∈ K ∧ t.2.2 ∈ V) →
    (∀ e, ((D.get? e).getD []).Nodup) →
    ∃ D', fillLoop K V triples D = .ok D' ∧ (∀ e, ((D'.get? e).getD []).Nodup) ∧
      ∀ k ∈ K, ∀ v ∈ V, ∀ p, p ∈ (D'.get? (K.idxOf k, V.idxOf v)).getD [] ↔ p ∈ (D.get? (K.idxOf k, V.idxOf v)).getD [] ∨ (k, p, v) ∈ triples := by
  induction triples with
  | nil => intro D _ hn; exact ⟨D, rfl, hn, by simp⟩
  | cons t triples ih =>
    obtain ⟨k, p, v⟩ := t
    intro D ht hn
    obtain ⟨hk, hv⟩ := ht _ (List.mem_cons_self)
    obtain ⟨D', d1, d2, d3⟩ := ih (addTo D (K.idxOf k, V.idxOf v) p) (fun t h => ht t (List.mem_cons_of_mem _ h)) (by
      intro e
      rw [addTo_get]
      split
      · split
        · exact hn _
        · rename_i h
          exact (hn _).append (List.nodup_singleton _) (by simpa using h)
      · exact hn _)
    refine ⟨D', ?_, d2, ?_⟩
    · rw [fillLoop, indexOf, if_pos hk, indexOf, if_pos hv]
      exact d1
    · intro k' hk' v' hv' p'
      rw [d3 k' hk' v' hv' p', addTo_get]
      by_cases he : (K.idxOf k', V.idxOf v') = (K.idxOf k, V.idxOf v)
      · simp only [Prod.mk.injEq] at he
        obtain rfl : k' = k := (List.idxOf_inj hk').1 he.1
        obtain rfl : v' = v := (List.idxOf_inj hv').1 he.2
        rw [if_pos rfl]
        split
        · rename_i h
          constructor
          · rintro (h1 | h1)
            · exact .inl h1
            · exact .inr (List.mem_cons_of_mem _ h1)
          · rintro (h1 | h1)
            · exact .inl h1
            · rcases List.mem_cons.1 h1 with h1 | h1
              · simp only [Prod.mk.injEq] at h1
                rw [h1.2.1]
                exact .inl h
              · exact .inr h1
        · simp only [List.mem_append, List.mem_cons, List.not_mem_nil, false_or, Prod.mk.injEq, true_and, and_true, or_assoc]
      · rw [if_neg he]
        have : (k', p', v') ≠ (k, p, v) := by
          rintro h
          simp only [Prod.mk.injEq] at h
          exact he (by rw [h.1, h.2.2])
        simp [this]

/-- **C158**, the table in a cell: no lookup fails, and the table has the given signed permutations in its entries. -/
theorem indexTriplesToValnegHtml_spec {keynegs valnegs : List Nat} {triples : List (Nat × Nat × Nat)} {arity : Nat} {perms : Nat → Nat → List Nat} {seq : Nat → Nat → List Int}
    (hk0 : keynegs ≠ []) (hv0 : valnegs ≠ []) (hkn : keynegs.Nodup) (hvn : valnegs.Nodup) (ht : ∀ t ∈ triples, t.1 ∈ keynegs ∧ t.2.2 ∈ valnegs)
    (hp : ∀ k v, (perms k v).Pairwise (· < ·)) (hm : ∀ k ∈ keynegs, ∀ v ∈ valnegs, ∀ p, p ∈ perms k v ↔ (k, p, v) ∈ triples)
    (hs : ∀ k p v, (k, p, v) ∈ triples → ∃ σ, SG.new { pair := some ((v : Int), (p : Int)) } = .ok σ ∧ σ.sequence (some arity) = .ok (seq v p)) :
    ∃ K V : List Nat, K.Perm keynegs ∧ K.Pairwise WeightLt ∧ V.Perm valnegs ∧ V.Pairwise WeightLt ∧
      indexTriplesToValnegHtml keynegs valnegs triples arity = .ok (sigpermTable K V perms seq) := by
  obtain ⟨K, k1, k2, k3⟩ := sortByWeight_spec hk0 hkn
  obtain ⟨V, v1, v2, v3⟩ := sortByWeight_spec hv0 hvn
  refine ⟨K, V, k2, k3, v2, v3, ?_⟩
  have hKn : K.Nodup := k2.nodup_iff.2 hkn
  have hVn : V.Nodup := v2.nodup_iff.2 hvn
  obtain ⟨D, d1, d2, d3⟩ := fillLoop_spec (K := K) (V := V) triples [] (fun t h => ⟨k2.mem_iff.2 (ht t h).1, v2.mem_iff.2 (ht t h).2⟩) (by intro e; exact List.nodup_nil)
  have hidx : ∀ {l : List Nat} {x j : Nat}, l.Nodup → (x, j) ∈ l.zipIdx → x ∈ l ∧ j = l.idxOf x := by
    intro l x j hl hx
    have h1 := List.mem_zipIdx_iff_getElem?.1 hx
    obtain ⟨h2, h3⟩ := List.getElem?_eq_some_iff.1 h1
    simp only at h2 h3
    refine ⟨List.mem_of_getElem? h1, ?_⟩
    rw [← h3, hl.idxOf_getElem]
  have htd : ∀ k i, (k, i) ∈ K.zipIdx → ∀ v j, (v, j) ∈ V.zipIdx → tdHtml arity (bordersLoop (V.map weightOf) 0 none []) D i v j =
      .ok ("<td".toList ++ (if decide (j ∈ bordersLoop (V.map weightOf) 0 none []) then " class=\"border-left\"".toList else []) ++ ">".toList ++
        List.intercalate "<br>".toList ((perms k v).map fun p => sigpermText p (seq v p)) ++ "</td>".toList) := by
    intro k i hki v j hvj
    obtain ⟨a1, rfl⟩ := hidx hKn hki
    obtain ⟨b1, rfl⟩ := hidx hVn hvj
    have hmem : ∀ p, p ∈ (D.get? (K.idxOf k, V.idxOf v)).getD [] ↔ p ∈ perms k v := by
      intro p
      rw [d3 k a1 v b1 p, hm k (k2.mem_iff.1 a1) v (v2.mem_iff.1 b1) p]
      simp [Dict.get?]
    have hcontent : permsHtml arity v (D.get? (K.idxOf k, V.idxOf v)) = .ok (List.intercalate "<br>".toList ((perms k v).map fun p => sigpermText p (seq v p))) := by
      have hnd := d2 (K.idxOf k, V.idxOf v)
      cases hD : D.get? (K.idxOf k, V.idxOf v) with
      | none =>
        rw [hD] at hmem
        have : perms k v = [] := List.eq_nil_iff_forall_not_mem.2 fun p hp => by simpa using (hmem p).2 hp
        rw [this]
        rfl
      | some s =>
        rw [hD] at hmem hnd
        simp only [Option.getD_some] at hmem hnd
        apply permsHtml_eq
        · refine eq_of_perm_of_le ?_ ((sorted_asc hnd).imp le_of_lt) ((hp k v).imp le_of_lt)
          rw [List.perm_ext_iff_of_nodup ((sorted_asc hnd).imp ne_of_lt) ((hp k v).imp ne_of_lt)]
          intro p
          rw [mem_sorted, hmem]
        · intro p hpp
          exact hs k p v ((hm k (k2.mem_iff.1 a1) v (v2.mem_iff.1 b1) p).1 hpp)
    unfold tdHtml
    dsimp only
    rw [hcontent]
    simp only [bind, Except.bind, pure, Except.pure, decide_eq_true_eq]
  have htr : ∀ k i, (k, i) ∈ K.zipIdx → trHtml arity V (bordersLoop (K.map weightOf) 0 none []) (bordersLoop (V.map weightOf) 0 none []) D k i =
      .ok ("<tr".toList ++ (if decide (i ∈ bordersLoop (K.map weightOf) 0 none []) then " class=\"border-top\"".toList else []) ++ ">".toList ++
      "<th class=\"left-label\">[[File:Cube vertex number ".toList ++ natStr k ++ " in square.svg|20px|link=]]</th>".toList ++
      ((withSteps V).flatMap fun v => "<td".toList ++ (if v.2 then " class=\"border-left\"".toList else []) ++ ">".toList ++
        List.intercalate "<br>".toList ((perms k v.1).map fun p => sigpermText p (seq v.1 p)) ++ "</td>".toList) ++ "</tr>".toList) := by
    intro k i hki
    obtain ⟨parts, q1, q2⟩ := steps_mapM V (fun x => tdHtml arity (bordersLoop (V.map weightOf) 0 none []) D i x.1 x.2)
      (fun v s => "<td".toList ++ (if s then " class=\"border-left\"".toList else []) ++ ">".toList ++
        List.intercalate "<br>".toList ((perms k v).map fun p => sigpermText p (seq v p)) ++ "</td>".toList) (htd k i hki)
    unfold trHtml
    dsimp only
    rw [q1]
    simp only [bind, Except.bind, pure, Except.pure, q2, decide_eq_true_eq]
  obtain ⟨rows, q1, q2⟩ := steps_mapM K (fun x => trHtml arity V (bordersLoop (K.map weightOf) 0 none []) (bordersLoop (V.map weightOf) 0 none []) D x.1 x.2)
    (fun k s => "<tr".toList ++ (if s then " class=\"border-top\"".toList else []) ++ ">".toList ++
      "<th class=\"left-label\">[[File:Cube vertex number ".toList ++ natStr k ++ " in square.svg|20px|link=]]</th>".toList ++
      ((withSteps V).flatMap fun v => "<td".toList ++ (if v.2 then " class=\"border-left\"".toList else []) ++ ">".toList ++
        List.intercalate "<br>".toList ((perms k v.1).map fun p => sigpermText p (seq v.1 p)) ++ "</td>".toList) ++ "</tr>".toList) htr
  have hicons : (V.zipIdx.flatMap fun (v, j) => (if j ∈ bordersLoop (V.map weightOf) 0 none [] then "[[File:1x1.png|2px|link=]]".toList else []) ++
        "[[File:Cube vertex number ".toList ++ natStr v ++ ".svg|20px|link=]]".toList) = (withSteps V).flatMap fun v =>
          (if v.2 then "[[File:1x1.png|2px|link=]]".toList else []) ++ "[[File:Cube vertex number ".toList ++ natStr v.1 ++ ".svg|20px|link=]]".toList := by
    rw [← steps_flatMap V fun v s => (if s then "[[File:1x1.png|2px|link=]]".toList else []) ++ "[[File:Cube vertex number ".toList ++ natStr v ++ ".svg|20px|link=]]".toList]
    simp only [decide_eq_true_eq]
  have hheader : (V.zipIdx.flatMap fun (v, j) => "<th".toList ++ (if j ∈ bordersLoop (V.map weightOf) 0 none [] then " class=\"border-left\"".toList else []) ++
        ">".toList ++ "[[File:Cube vertex number ".toList ++ natStr v ++ ".svg|20px|link=]]</th>".toList) = (withSteps V).flatMap fun v =>
          "<th".toList ++ (if v.2 then " class=\"border-left\"".toList else []) ++ ">".toList ++ "[[File:Cube vertex number ".toList ++ natStr v.1 ++ ".svg|20px|link=]]</th>".toList := by
    rw [← steps_flatMap V fun v s => "<th".toList ++ (if s then " class=\"border-left\"".toList else []) ++ ">".toList ++ "[[File:Cube vertex number ".toList ++ natStr v ++ ".svg|20px|link=]]</th>".toList]
    simp only [decide_eq_true_eq]
  unfold indexTriplesToValnegHtml
  rw [k1]
  simp only [bind, Except.bind]
  rw [v1]
  simp only
  rw [d1]
  simp only
  rw [q1]
  simp only [pure, Except.pure, q2]
  rw [hicons, hheader]
  unfold sigpermTable
  congr 1
  simp only [List.append_assoc]

end Verif.BF
