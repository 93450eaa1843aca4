import Verif.Boolf.Model13
import Verif.Boolf.Props15
import Verif.Boolf.Props14
import Verif.Binv.Props3

/-!
# Strings and the order of functions (C104)
-/

namespace Verif.BF
open Verif.Py Verif.BV Verif.P Verif.W Verif.SP
open Verif.A hiding Mat

/-! ## python expressions for functions -/

/-- The python expressions `Boolf('…')`, `Boolf('…', […])`, `Boolf(fullspots=[…], arity=n)`, `Boolf(fullspots=[…], atomvals=[…])`,
and the last two with a leading `~`. -/
inductive Expr
  | tt (digits : List Char)
  | ttAtoms (digits : List Char) (atoms : List Nat)
  | arity (tilde : Bool) (spots : List Nat) (n : Nat)
  | atoms (tilde : Bool) (spots atoms : List Nat)

/-- The expression as a string. -/
def Expr.text : Expr → List Char
  | .tt d => "Boolf('".toList ++ d ++ "')".toList
  | .ttAtoms d A => "Boolf('".toList ++ d ++ "', ".toList ++ listStr natStr A ++ ")".toList
  | .arity t S n => (if t then ['~'] else []) ++ "Boolf(fullspots=".toList ++ listStr natStr S ++ ", arity=".toList ++ natStr n ++ ")".toList
  | .atoms t S A => (if t then ['~'] else []) ++ "Boolf(fullspots=".toList ++ listStr natStr S ++ ", atomvals=".toList ++ listStr natStr A ++ ")".toList

/-- python `~f` if there is a tilde -/
noncomputable def tilded (t : Bool) (r : Except Err Boolf) : Except Err Boolf := if t then r.bind Boolf.complement else r

/-- The value of the expression: calls of the constructor (C61), and the complement. -/
noncomputable def Expr.value : Expr → Except Err Boolf
  | .tt d => new { tt := some (.str d) }
  | .ttAtoms d A => new { tt := some (.str d), av := some (A.map Int.ofNat) }
  | .arity t S n => tilded t (new { fs := some (S.map Int.ofNat), arity := some (n : Int) })
  | .atoms t S A => tilded t (new { fs := some (S.map Int.ofNat), av := some (A.map Int.ofNat) })

/-- The digits are digits and spaces. -/
def Expr.Wf : Expr → Prop
  | .tt d => ∀ c ∈ d, c ∈ ['0', '1', ' ']
  | .ttAtoms d _ => ∀ c ∈ d, c ∈ ['0', '1', ' ']
  | _ => True

theorem quote_split (d d' : List Char) (r s : List Char) (hd : ∀ c ∈ d, c ∈ ['0', '1', ' ']) (hd' : ∀ c ∈ d', c ∈ ['0', '1', ' '])
    (h : d ++ '\'' :: r = d' ++ '\'' :: s) : d = d' ∧ r = s := by
  induction d generalizing d' with
  | nil =>
    cases d' with
    | nil => simpa using h
    | cons c d' =>
      simp only [List.nil_append, List.cons_append, List.cons.injEq] at h
      have := hd' c (by simp)
      rw [← h.1] at this; simp at this
  | cons c d ih =>
    cases d' with
    | nil =>
      simp only [List.nil_append, List.cons_append, List.cons.injEq] at h
      have := hd c (by simp)
      rw [h.1] at this; simp at this
    | cons c' d' =>
      simp only [List.cons_append, List.cons.injEq] at h
      obtain ⟨h1, h2⟩ := ih d' (fun c hc => hd c (by simp [hc])) (fun c hc => hd' c (by simp [hc])) h.2
      exact ⟨by rw [h.1, h1], h2⟩

/-- a leading tilde -/
def tildeStr (t : Bool) (r : List Char) : List Char := if t then '~' :: r else r

theorem tildeStr_inj {t t' : Bool} {r r' : List Char} (h : tildeStr t ('B' :: r) = tildeStr t' ('B' :: r')) : t = t' ∧ r = r' := by
  cases t <;> cases t' <;> simp [tildeStr] at h ⊢
  · exact h
  · exact h

theorem text_tt (d : List Char) : (Expr.tt d).text = 'B' :: 'o' :: 'o' :: 'l' :: 'f' :: '(' :: '\'' :: (d ++ '\'' :: [')']) := rfl

theorem text_ttAtoms (d : List Char) (A : List Nat) :
    (Expr.ttAtoms d A).text = 'B' :: 'o' :: 'o' :: 'l' :: 'f' :: '(' :: '\'' :: (d ++ '\'' :: ',' :: ' ' :: (listStr natStr A ++ [')'])) := by
  show "Boolf('".toList ++ d ++ "', ".toList ++ listStr natStr A ++ ")".toList = _
  rw [List.append_assoc, List.append_assoc, List.append_assoc]
  rfl

theorem text_arity (t : Bool) (S : List Nat) (n : Nat) :
    (Expr.arity t S n).text = tildeStr t ('B' :: ("oolf(fullspots=".toList ++ (listStr natStr S ++ ',' :: ' ' :: 'a' :: 'r' :: ("ity=".toList ++ (natStr n ++ [')']))))) := by
  show (if t then ['~'] else []) ++ "Boolf(fullspots=".toList ++ listStr natStr S ++ ", arity=".toList ++ natStr n ++ ")".toList = _
  rw [List.append_assoc, List.append_assoc, List.append_assoc, List.append_assoc]
  cases t <;> rfl

theorem text_atoms (t : Bool) (S A : List Nat) :
    (Expr.atoms t S A).text = tildeStr t ('B' :: ("oolf(fullspots=".toList ++ (listStr natStr S ++ ',' :: ' ' :: 'a' :: 't' :: ("omvals=".toList ++ (listStr natStr A ++ [')']))))) := by
  show (if t then ['~'] else []) ++ "Boolf(fullspots=".toList ++ listStr natStr S ++ ", atomvals=".toList ++ listStr natStr A ++ ")".toList = _
  rw [List.append_assoc, List.append_assoc, List.append_assoc, List.append_assoc]
  cases t <;> rfl

theorem short_ne_long (t : Bool) (r s : List Char) :
    'B' :: 'o' :: 'o' :: 'l' :: 'f' :: '(' :: '\'' :: r ≠ tildeStr t ('B' :: ("oolf(fullspots=".toList ++ s)) := by
  intro h
  obtain ⟨_, h⟩ := tildeStr_inj (t := false) (t' := t) h
  have h6 : ('o' :: 'o' :: 'l' :: 'f' :: '(' :: '\'' :: r)[5]? = ("oolf(fullspots=".toList ++ s)[5]? := by rw [h]
  rw [show ("oolf(fullspots=".toList ++ s)[5]? = some 'f' from rfl] at h6
  simp at h6

theorem Expr.text_inj {e e' : Expr} (hw : e.Wf) (hw' : e'.Wf) (h : e.text = e'.text) : e = e' := by
  cases e with
  | tt d =>
    rw [text_tt] at h
    cases e' with
    | tt d' =>
      rw [text_tt] at h
      simp only [List.cons.injEq, true_and] at h
      rw [List.append_cancel_right h]
    | ttAtoms d' A' =>
      rw [text_ttAtoms] at h
      simp only [List.cons.injEq, true_and] at h
      have := (quote_split d d' _ _ hw hw' h).2
      simp only [List.cons.injEq] at this
      exact absurd this.1 (by decide)
    | arity t' S' n' => rw [text_arity] at h; exact absurd h (short_ne_long _ _ _)
    | atoms t' S' A' => rw [text_atoms] at h; exact absurd h (short_ne_long _ _ _)
  | ttAtoms d A =>
    rw [text_ttAtoms] at h
    cases e' with
    | tt d' =>
      rw [text_tt] at h
      simp only [List.cons.injEq, true_and] at h
      have := (quote_split d d' _ _ hw hw' h).2
      simp only [List.cons.injEq] at this
      exact absurd this.1 (by decide)
    | ttAtoms d' A' =>
      rw [text_ttAtoms] at h
      simp only [List.cons.injEq, true_and] at h
      obtain ⟨h1, h2⟩ := quote_split d d' _ _ hw hw' h
      simp only [List.cons.injEq, true_and] at h2
      rw [h1, (listStr_inj natStr_decodable A A' _ _ h2).1]
    | arity t' S' n' => rw [text_arity] at h; exact absurd h (short_ne_long _ _ _)
    | atoms t' S' A' => rw [text_atoms] at h; exact absurd h (short_ne_long _ _ _)
  | arity t S n =>
    rw [text_arity] at h
    cases e' with
    | tt d' => rw [text_tt] at h; exact absurd h.symm (short_ne_long _ _ _)
    | ttAtoms d' A' => rw [text_ttAtoms] at h; exact absurd h.symm (short_ne_long _ _ _)
    | arity t' S' n' =>
      rw [text_arity] at h
      obtain ⟨rfl, h1⟩ := tildeStr_inj h
      obtain ⟨rfl, h2⟩ := listStr_inj natStr_decodable _ _ _ _ (List.append_cancel_left h1)
      simp only [List.cons.injEq, true_and] at h2
      rw [natStr_inj (List.append_cancel_right (List.append_cancel_left h2))]
    | atoms t' S' A' =>
      rw [text_atoms] at h
      obtain ⟨rfl, h1⟩ := tildeStr_inj h
      obtain ⟨_, h2⟩ := listStr_inj natStr_decodable _ _ _ _ (List.append_cancel_left h1)
      simp only [List.cons.injEq, true_and] at h2
      exact absurd h2.1 (by decide)
  | atoms t S A =>
    rw [text_atoms] at h
    cases e' with
    | tt d' => rw [text_tt] at h; exact absurd h.symm (short_ne_long _ _ _)
    | ttAtoms d' A' => rw [text_ttAtoms] at h; exact absurd h.symm (short_ne_long _ _ _)
    | arity t' S' n' =>
      rw [text_arity] at h
      obtain ⟨rfl, h1⟩ := tildeStr_inj h
      obtain ⟨_, h2⟩ := listStr_inj natStr_decodable _ _ _ _ (List.append_cancel_left h1)
      simp only [List.cons.injEq, true_and] at h2
      exact absurd h2.1 (by decide)
    | atoms t' S' A' =>
      rw [text_atoms] at h
      obtain ⟨rfl, h1⟩ := tildeStr_inj h
      obtain ⟨rfl, h2⟩ := listStr_inj natStr_decodable _ _ _ _ (List.append_cancel_left h1)
      simp only [List.cons.injEq, true_and] at h2
      rw [(listStr_inj natStr_decodable _ _ _ _ (List.append_cancel_left h2)).1]

theorem mem_prettyLoop (n i : Nat) (v : List Bool) {c : Char} (hc : c ∈ prettyLoop n i v) : c ∈ ['0', '1', ' '] := by
  induction v generalizing i with
  | nil => simp [prettyLoop] at hc
  | cons d v ih =>
    rw [prettyLoop, List.mem_cons, List.mem_append] at hc
    rcases hc with h | h | h
    · cases d <;> simp_all
    · revert h
      split <;> (try split) <;> (try split) <;> simp +contextual
    · exact ih _ h

theorem value_spots {f : Boolf} (hf : Canon f) (av : Option (List Int)) (ar : Option Int) (h1 : av.isSome ≠ ar.isSome)
    (h2 : av.getD ((List.range (ar.getD 0).toNat).map Int.ofNat) = f.atomvals.map Int.ofNat) :
    new { fs := some (f.fullspots.map Int.ofNat), av := av, arity := ar } = .ok f := by
  obtain ⟨g, g1, g2, g3⟩ := newFullspots_spec hf.asc (fun i hi => fullspots_lt hf.toSound hi) h1 h2
  show newFullspots _ av ar false = _
  rw [g1]
  refine congrArg Except.ok (g2.ext hf fun a => ?_)
  rw [g3, Bool.eq_iff_iff, decide_eq_true_eq, spot_mem hf.toSound]

theorem complement_complement {f c : Boolf} (hf : Canon f) (hc : f.complement = .ok c) : Canon c ∧ c.complement = .ok f ∧ c.atomvals = f.atomvals := by
  obtain ⟨c', c1, c2, c3⟩ := complement_spec hf.toSound
  rw [hc] at c1
  cases c1
  obtain ⟨d, d1, d2, d3⟩ := complement_spec c2.toSound
  refine ⟨c2, ?_, ?_⟩
  · rw [d1, d2.ext hf fun a => by rw [d3, c3, Bool.not_not]]
  · apply eq_of_mem_iff_of_lt c2.asc hf.asc
    intro x
    rw [c2.mem_iff, hf.mem_iff]
    unfold Dep
    simp only [c3, ne_eq, Bool.not_inj_iff]

theorem long_arity (t : Bool) (S : List Nat) (n : Nat) :
    (if t then ['~'] else []) ++ "Boolf(fullspots=".toList ++ listStr natStr S ++ ", ".toList ++ ("arity=".toList ++ natStr n) ++ [')'] = (Expr.arity t S n).text := by
  unfold Expr.text
  simp only [List.append_assoc]
  rfl

theorem long_atoms (t : Bool) (S A : List Nat) :
    (if t then ['~'] else []) ++ "Boolf(fullspots=".toList ++ listStr natStr S ++ ", ".toList ++ ("atomvals=".toList ++ listStr natStr A) ++ [')'] = (Expr.atoms t S A).text := by
  unfold Expr.text
  simp only [List.append_assoc]
  rfl

theorem short_tt (d : List Char) : "Boolf('".toList ++ d ++ ['\''] ++ [] ++ [')'] = (Expr.tt d).text := by
  unfold Expr.text
  simp only [List.append_assoc]
  rfl

theorem short_atoms (d : List Char) (A : List Nat) : "Boolf('".toList ++ d ++ ['\''] ++ (", ".toList ++ listStr natStr A) ++ [')'] = (Expr.ttAtoms d A).text := by
  unfold Expr.text
  simp only [List.append_assoc]
  rfl

/-- The string is an expression whose value is the function. -/
theorem str_spec {f : Boolf} (hf : Canon f) : ∃ e : Expr, f.str = .ok e.text ∧ e.Wf ∧ e.value = .ok f := by
  have hsort : ∀ g : Boolf, sorted g.fullspots = g.fullspots := fun g => sorted_exposet g.root
  unfold Boolf.str
  split
  next hv =>
    have hp : f.root.pretty = .ok (prettyLoop f.root.length 0 f.root.vector) := by
      unfold Binv.pretty
      rw [if_pos]
      rw [List.mem_map]
      exact ⟨f.valency, by rw [List.mem_range]; omega, by rw [Binv.length, hf.len, hf.val]⟩
    rw [hp]
    have hfil := prettyLoop_filter f.root.length 0 f.root.vector
    have hfor := fun av => (C64_formats f.root.vector av false _ hfil).2.1
    have hval : newTT (.binv f.root) (some (f.atomvals.map Int.ofNat)) = .ok f := by
      obtain ⟨g, g1, g2, g3⟩ := ttDeflated_asc hf.asc hf.len
      exact ((newTT_binv f.root.vector _).trans g1).trans (congrArg Except.ok (g2.ext hf g3))
    by_cases hr : f.isRoot = true
    · refine ⟨.tt (prettyLoop f.root.length 0 f.root.vector), ?_, fun c hc => mem_prettyLoop _ _ _ hc, ?_⟩
      · simp only [bind, Except.bind, pure, Except.pure]
        rw [if_pos hr, short_tt]
      · show newTT (.str _) none none false = _
        rw [hfor none, (C64_without_atoms f.root.vector).2.2.2 f.valency (by rw [hf.len, hf.val]), ← (isRoot_iff hf.toSound).1 hr]
        exact hval
    · refine ⟨.ttAtoms (prettyLoop f.root.length 0 f.root.vector) f.atomvals, ?_, fun c hc => mem_prettyLoop _ _ _ hc, ?_⟩
      · simp only [bind, Except.bind, pure, Except.pure]
        rw [if_neg hr, short_atoms]
      · show newTT (.str _) _ none false = _
        rw [hfor]
        exact hval
  next hv =>
    unfold Boolf.longStr
    obtain ⟨r, hr, _⟩ := C80_weight_fract f hf.reach.obj
    obtain ⟨c, hc, _⟩ := complement_spec hf.toSound
    obtain ⟨c2, c3, c4⟩ := complement_complement hf hc
    rw [hr, hc]
    have har : f.isRoot = true → (List.range f.adicity).map Int.ofNat = f.atomvals.map Int.ofNat := by
      intro h
      rw [(isRoot_iff hf.toSound).1 h]
      unfold Boolf.isRoot at h
      rw [of_decide_eq_true h]
    simp only [bind, Except.bind, pure, Except.pure]
    by_cases ht : r > 1 / 2
    · rw [decide_eq_true ht]
      by_cases hroot : f.isRoot = true
      · refine ⟨.arity true c.fullspots f.adicity, ?_, trivial, ?_⟩
        · rw [if_pos rfl, if_pos hroot, ← long_arity, hsort]
        · show (new { fs := some (c.fullspots.map Int.ofNat), av := none, arity := some (f.adicity : Int) }).bind _ = _
          rw [value_spots c2 none (some f.adicity) (by simp) (by rw [c4]; simpa using har hroot)]
          exact c3
      · refine ⟨.atoms true c.fullspots f.atomvals, ?_, trivial, ?_⟩
        · rw [if_pos rfl, if_neg hroot, ← long_atoms, hsort]
        · show (new { fs := some (c.fullspots.map Int.ofNat), av := some _, arity := none }).bind _ = _
          rw [value_spots c2 (some (f.atomvals.map Int.ofNat)) none (by simp) (by rw [c4]; rfl)]
          exact c3
    · rw [decide_eq_false ht]
      by_cases hroot : f.isRoot = true
      · refine ⟨.arity false f.fullspots f.adicity, ?_, trivial, ?_⟩
        · rw [if_neg (by decide), if_pos hroot, ← long_arity, hsort]
        · exact value_spots hf none (some f.adicity) (by simp) (by simpa using har hroot)
      · refine ⟨.atoms false f.fullspots f.atomvals, ?_, trivial, ?_⟩
        · rw [if_neg (by decide), if_neg hroot, ← long_atoms, hsort]
        · exact value_spots hf (some (f.atomvals.map Int.ofNat)) none (by simp) rfl

/-! ## the order of strings -/

theorem strLt_irrefl (v : List Char) : strLt v v = false := by
  induction v with
  | nil => rfl
  | cons x v ih => simp [strLt, ih]

theorem strLt_trans (u v w : List Char) (h1 : strLt u v = true) (h2 : strLt v w = true) : strLt u w = true := by
  induction u generalizing v w with
  | nil => cases v <;> cases w <;> simp_all [strLt]
  | cons x u ih =>
    cases v with
    | nil => simp [strLt] at h1
    | cons y v =>
      cases w with
      | nil => simp [strLt] at h2
      | cons z w =>
        rw [strLt] at *
        by_cases hxy : x = y
        · subst hxy
          rw [if_pos rfl] at h1
          by_cases hxz : x = z
          · rw [if_pos hxz] at h2 ⊢; exact ih v w h1 h2
          · rw [if_neg hxz] at h2 ⊢; exact h2
        · rw [if_neg hxy, decide_eq_true_eq] at h1
          by_cases hyz : y = z
          · subst hyz; rw [if_neg hxy, decide_eq_true_eq]; exact h1
          · rw [if_neg hyz, decide_eq_true_eq] at h2
            rw [if_neg (by rintro rfl; omega), decide_eq_true_eq]; omega

theorem strLt_total (v w : List Char) : strLt v w = true ∨ v = w ∨ strLt w v = true := by
  induction v generalizing w with
  | nil => cases w <;> simp [strLt]
  | cons x v ih =>
    cases w with
    | nil => simp [strLt]
    | cons y w =>
      by_cases hxy : x = y
      · subst hxy; simp only [strLt, if_true, List.cons.injEq, true_and]; exact ih w
      · simp only [strLt, if_neg hxy, if_neg (Ne.symm hxy), decide_eq_true_eq]
        have : x.toNat ≠ y.toNat := fun h => hxy (Char.toNat_inj.1 h)
        omega

/-! ## the theorems -/

/-- **C104.** `str` never fails, and it is a python expression that makes the function. -/
theorem C104_roundtrip (f : Boolf) (hf : Reach f) : ∃ e : Expr, f.str = .ok e.text ∧ e.value = .ok f := by
  obtain ⟨e, h1, _, h3⟩ := str_spec hf.canon
  exact ⟨e, h1, h3⟩

/-- **C104.** Equal strings (hence equal hashes) belong exactly to equal functions. -/
theorem C104_str_inj (f g : Boolf) (hf : Reach f) (hg : Reach g) : f.str = g.str ↔ ∀ key : Nat, f.getItem key = g.getItem key := by
  constructor
  · intro h
    obtain ⟨e, h1, h2, h3⟩ := str_spec hf.canon
    obtain ⟨e', h1', h2', h3'⟩ := str_spec hg.canon
    rw [h1, h1'] at h
    rw [Expr.text_inj h2 h2' (Except.ok.inj h), h3'] at h3
    rw [Except.ok.inj h3]
    exact fun _ => rfl
  · intro h
    rw [hf.canon.ext_key hg.canon h]

example : ∃ f, newTT (.str "0001".toList) (some [1, 3]) = .ok f ∧ Reach f ∧ f.str = .ok "Boolf('0001', [1, 3])".toList := by
  obtain ⟨e1, _, e2⟩ := newTT_explicit "0001".toList [false, false, false, true] [1, 3] 4 (by decide) (by decide) (by decide) (by intro n; simp; omega) (by decide) (by decide)
  exact ⟨_, e1, e2.reach, by decide +kernel⟩

example : ∃ f, new { fs := some [0], arity := some 5 } = .ok f ∧ Reach f ∧ f.str = .ok "Boolf(fullspots=[0], arity=5)".toList ∧
    ∃ g, f.complement = .ok g ∧ g.str = .ok "~Boolf(fullspots=[0], arity=5)".toList := by
  refine ⟨⟨⟨true :: List.replicate 31 false⟩, [0, 1, 2, 3, 4], 5, 5, false, false⟩, by decide +kernel, ?_, by decide +kernel, ?_⟩
  · exact .new { fs := some [0], arity := some 5 } _ (by decide +kernel) rfl (by simp [Args.entries])
  · exact ⟨⟨⟨false :: List.replicate 31 true⟩, [0, 1, 2, 3, 4], 5, 5, false, false⟩, by decide +kernel, by decide +kernel⟩

/-- **C104.** `<` never fails, and it is a strict total order: for two functions exactly one of `f < g`, `f == g` and `g < f` is true, and it is transitive. -/
theorem C104_lt (f g h : Boolf) (hf : Reach f) (hg : Reach g) (hh : Reach h) :
    (∃ b, f.lt g = .ok b) ∧
    (f.lt g = .ok true ∨ f.eq g = true ∨ g.lt f = .ok true) ∧
    (f.lt g = .ok true → f.eq g = false ∧ g.lt f = .ok false) ∧
    (f.eq g = true → f.lt g = .ok false) ∧
    (f.lt g = .ok true → g.lt h = .ok true → f.lt h = .ok true) := by
  obtain ⟨e, h1, _, h3⟩ := str_spec hf.canon
  obtain ⟨e', h1', _, h3'⟩ := str_spec hg.canon
  obtain ⟨e'', h1'', _, h3''⟩ := str_spec hh.canon
  have hlt : ∀ {a b : Boolf} {s t : List Char}, a.str = .ok s → b.str = .ok t → a.lt b = .ok (strLt s t) := by
    intro a b s t ha hb
    unfold Boolf.lt
    rw [ha, hb]
    rfl
  have hok : ∀ {b : Bool}, (Except.ok b : Except Err Bool) = .ok true ↔ b = true := by
    intro b; exact ⟨fun h => Except.ok.inj h, fun h => by rw [h]⟩
  have heq : f.eq g = true ↔ e.text = e'.text := by
    constructor
    · intro h
      have : f = g := by
        obtain ⟨k1, k2⟩ := (Boolf.eq_iff f g).1 h
        exact hf.canon.ext hg.canon fun a => by unfold Boolf.eval; rw [k1, k2]
      subst this
      rw [h1] at h1'
      exact Except.ok.inj h1'
    · intro h
      have := (C104_str_inj f g hf hg).1 (by rw [h1, h1', h])
      rw [hf.canon.ext_key hg.canon this]
      exact (Boolf.eq_iff g g).2 ⟨rfl, rfl⟩
  rw [hlt h1 h1', hlt h1' h1, hlt h1' h1'', hlt h1 h1'', hok, hok, hok, hok]
  refine ⟨⟨_, rfl⟩, ?_, fun h => ⟨?_, ?_⟩, fun h => ?_, strLt_trans _ _ _⟩
  · rw [heq]; exact strLt_total _ _
  · rw [← Bool.not_eq_true, heq]
    intro hc
    rw [hc, strLt_irrefl] at h; cases h
  · congr 1
    rw [← Bool.not_eq_true]
    intro hc
    have := strLt_trans _ _ _ h hc
    rw [strLt_irrefl] at this; cases this
  · rw [heq.1 h, strLt_irrefl]

example : (setUnary 2).lt (setUnary 0) = .ok false ∧ (setUnary 0).lt (setUnary 2) = .ok false → False := by decide +kernel

/-- **C104.** `>`, `<=` and `>=` are the corresponding relations. -/
theorem C104_comparisons (f g : Boolf) (hf : Reach f) (hg : Reach g) :
    (f.gt g = .ok true ↔ g.lt f = .ok true) ∧
    (∃ b, f.le g = .ok b) ∧ (f.le g = .ok true ↔ g.lt f = .ok false) ∧
    (∃ b, f.ge g = .ok b) ∧ (f.ge g = .ok true ↔ f.lt g = .ok false) ∧
    (f.le g = .ok true → g.le f = .ok true → ∀ key : Nat, f.getItem key = g.getItem key) := by
  obtain ⟨⟨b, hb⟩, t1, t2, t3, _⟩ := C104_lt f g g hf hg hg
  obtain ⟨⟨b', hb'⟩, t1', t2', t3', _⟩ := C104_lt g f f hg hf hf
  have hsym : f.eq g = g.eq f := by
    rw [Bool.eq_iff_iff, Boolf.eq_iff, Boolf.eq_iff]
    exact ⟨fun h => ⟨h.1.symm, h.2.symm⟩, fun h => ⟨h.1.symm, h.2.symm⟩⟩
  have key : f.eq g = true → ∀ key : Nat, f.getItem key = g.getItem key := by
    intro h
    obtain ⟨k1, k2⟩ := (Boolf.eq_iff f g).1 h
    rw [hf.canon.ext hg.canon fun a => by unfold Boolf.eval; rw [k1, k2]]
    exact fun _ => rfl
  rw [show f.gt g = g.lt f from rfl, show f.ge g = g.le f from rfl]
  unfold Boolf.le
  rw [← hsym]
  rw [hb] at t1 t2 t3 t1' t2' ⊢
  rw [hb'] at t1 t2 t1' t2' t3' ⊢
  rw [← hsym] at t1' t2' t3'
  cases he : f.eq g <;> cases b <;> cases b' <;> simp_all

/-- **C104 (exception).** With `skip_deflation` the string can be wrong: the disjunction of the atoms 0 to 4 and that of the atoms 0 and 1
with 5 arguments have complements with only one full spot, and different functions get the same string. -/
theorem C104_inflated : ∃ f g, new { fs := some ((List.range 32).filter (· % 4 ≠ 0) |>.map Int.ofNat), arity := some 5, skip := true } = .ok f ∧
    new { fs := some ((List.range' 1 31).map Int.ofNat), arity := some 5 } = .ok g ∧
    f.str = .ok "~Boolf(fullspots=[0], arity=5)".toList ∧ g.str = f.str ∧ f.getItem 4 = .ok false ∧ g.getItem 4 = .ok true := by
  refine ⟨⟨⟨(List.range 32).map (· % 4 ≠ 0)⟩, [0, 1, 2, 3, 4], 5, 5, false, true⟩, ⟨⟨false :: List.replicate 31 true⟩, [0, 1, 2, 3, 4], 5, 5, false, false⟩, ?_⟩
  decide +kernel

end Verif.BF
