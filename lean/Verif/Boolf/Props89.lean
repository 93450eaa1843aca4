import Verif.Boolf.Props27
import Verif.Boolf.Props88
import Verif.Boolf.Model30

/-!
# C159: the row of a wiki table
-/

namespace Verif.BF
open Verif.Py Verif.BV Verif.P Verif.W Verif.SP
open Verif.A hiding Mat

/-! ## the format -/

/-- the values in a row -/
structure TableRow where
  zhegalkin : Nat
  /-- the Zhegalkin index is odd -/
  odd : Bool
  /-- numerator and denominator of the value -/
  vnum : Nat
  vden : Nat
  /-- the value is above one half -/
  above : Bool
  vdec : List Char
  /-- numerator and denominator of the fraction of true places -/
  wnum : Nat
  wden : Nat
  /-- the fraction of true places compared with one half -/
  half : Ordering
  wdec : List Char
  trueCount : Nat
  length : Nat
  arity : Nat
  bundles : Nat
  names : List Char
  /-- classes for long numbers -/
  zhegalkinFont : List Char
  fractionFont : List Char

/-- the text of a row -/
def TableRow.text (r : TableRow) : List Char :=
  (["\n|-\n|class=\"zhegalkin ".toList, if r.odd then "odd".toList else "even".toList, " ".toList, r.zhegalkinFont, "\"| ".toList, natStr r.zhegalkin,
    "\n|class=\"fraction num ".toList, r.fractionFont, "\"| ".toList, natStr r.vnum,
    "\n|class=\"fraction den ".toList, r.fractionFont, "\"| ".toList, natStr r.vden,
    "\n|class=\"fraction dec ".toList, if r.above then "above-half".toList else "below-half".toList, "\"| ".toList, r.vdec] ++
    ["\n|class=\"weight num reduced\"| ".toList, natStr r.wnum, "\n|class=\"weight den reduced\"| ".toList, natStr r.wden,
    "\n|class=\"weight dec ".toList, (match r.half with | .lt => "below-half".toList | .eq => "exactly-half".toList | .gt => "above-half".toList), "\"| ".toList, r.wdec,
    "\n|class=\"weight num unreduced\"| ".toList, natStr r.trueCount, "\n|class=\"weight den unreduced\"| ".toList, natStr r.length,
    "\n|class=\"arity\"| ".toList, natStr r.arity, "\n|class=\"bundles".toList, if r.bundles = 1 then " uni".toList else [], "\"| ".toList, natStr r.bundles,
    "\n|class=\"names\"| ".toList, r.names]).flatten

/-! ## the template -/

theorem rowTemplate_parts : templateParts rowTemplate none [] =
    [.text "\n|-\n|class=\"zhegalkin ".toList, .field "zhegalkin_oddness", .text " ".toList, .field "zhegalkin_font_size", .text "\"| ".toList, .field "zhegalkin",
      .text "\n|class=\"fraction num ".toList, .field "fraction_font_size", .text "\"| ".toList, .field "vnum",
      .text "\n|class=\"fraction den ".toList, .field "fraction_font_size", .text "\"| ".toList, .field "vden",
      .text "\n|class=\"fraction dec ".toList, .field "vinterval", .text "\"| ".toList, .field "vdec"] ++
    [.text "\n|class=\"weight num reduced\"| ".toList, .field "wnum", .text "\n|class=\"weight den reduced\"| ".toList, .field "wden",
      .text "\n|class=\"weight dec ".toList, .field "winterval", .text "\"| ".toList, .field "wdec",
      .text "\n|class=\"weight num unreduced\"| ".toList, .field "wnum_big", .text "\n|class=\"weight den unreduced\"| ".toList, .field "wden_big",
      .text "\n|class=\"arity\"| ".toList, .field "valency", .text "\n|class=\"bundles".toList, .field "unibundle_class", .text "\"| ".toList, .field "number_of_bundles",
      .text "\n|class=\"names\"| ".toList, .field "names_cell"] := by decide +kernel

def partText (d : Dict String (List Char)) : TemplatePart → List Char
  | .text s => s
  | .field n => (d.get? n).getD []

theorem partText_text (d : Dict String (List Char)) (s : List Char) : partText d (.text s) = s := rfl
theorem partText_field {d : Dict String (List Char)} {n : String} {v : List Char} (h : d.get? n = some v) : partText d (.field n) = v := by
  rw [partText, h, Option.getD_some]

theorem parts_mapM (d : Dict String (List Char)) (parts : List TemplatePart) (h : ∀ n, .field n ∈ parts → ∃ v, d.get? n = some v) :
    parts.mapM (partValue d) = .ok (parts.map (partText d)) := by
  apply mapM_ok
  intro p hp
  cases p with
  | text s => rfl
  | field n =>
    obtain ⟨v, hv⟩ := h n hp
    simp only [partValue, dictGet, hv, partText, Option.getD_some]

/-- the dictionary -/
def rowDict (z zo zf vn vd ve vi wn wd we wi wb lb va ff nm nb ub : List Char) : Dict String (List Char) :=
  [("zhegalkin", z), ("zhegalkin_oddness", zo), ("zhegalkin_font_size", zf),
    ("vnum", vn), ("vden", vd), ("vdec", ve), ("vinterval", vi), ("wnum", wn), ("wden", wd), ("wdec", we), ("winterval", wi),
    ("wnum_big", wb), ("wden_big", lb), ("valency", va), ("fraction_font_size", ff), ("names_cell", nm), ("number_of_bundles", nb), ("unibundle_class", ub)]

theorem get_at {d : Dict String (List Char)} (hk : d.keys.Nodup) (i : Nat) {k : String} {v : List Char} (h : d[i]? = some (k, v)) : d.get? k = some v :=
  (Dict.get?_iff_mem hk).2 (List.mem_of_getElem? h)

theorem get_all (z zo zf vn vd ve vi wn wd we wi wb lb va ff nm nb ub : List Char) :
    let d := rowDict z zo zf vn vd ve vi wn wd we wi wb lb va ff nm nb ub
    d.get? "zhegalkin" = some z ∧ d.get? "zhegalkin_oddness" = some zo ∧ d.get? "zhegalkin_font_size" = some zf ∧ d.get? "vnum" = some vn ∧ d.get? "vden" = some vd ∧ d.get? "vdec" = some ve ∧
     d.get? "vinterval" = some vi ∧ d.get? "wnum" = some wn ∧ d.get? "wden" = some wd ∧ d.get? "wdec" = some we ∧ d.get? "winterval" = some wi ∧ d.get? "wnum_big" = some wb ∧
     d.get? "wden_big" = some lb ∧ d.get? "valency" = some va ∧ d.get? "fraction_font_size" = some ff ∧ d.get? "names_cell" = some nm ∧ d.get? "number_of_bundles" = some nb ∧
     d.get? "unibundle_class" = some ub := by
  intro d
  have hk : d.keys.Nodup := by
    show ["zhegalkin", "zhegalkin_oddness", "zhegalkin_font_size", "vnum", "vden", "vdec", "vinterval", "wnum", "wden", "wdec", "winterval", "wnum_big", "wden_big", "valency",
      "fraction_font_size", "names_cell", "number_of_bundles", "unibundle_class"].Nodup
    decide +kernel
  exact ⟨get_at hk 0 rfl, get_at hk 1 rfl, get_at hk 2 rfl, get_at hk 3 rfl, get_at hk 4 rfl, get_at hk 5 rfl, get_at hk 6 rfl, get_at hk 7 rfl, get_at hk 8 rfl, get_at hk 9 rfl,
    get_at hk 10 rfl, get_at hk 11 rfl, get_at hk 12 rfl, get_at hk 13 rfl, get_at hk 14 rfl, get_at hk 15 rfl, get_at hk 16 rfl, get_at hk 17 rfl⟩

theorem substitute_row (z zo zf vn vd ve vi wn wd we wi wb lb va ff nm nb ub : List Char) :
    substitute rowTemplate (rowDict z zo zf vn vd ve vi wn wd we wi wb lb va ff nm nb ub) = .ok
      (["\n|-\n|class=\"zhegalkin ".toList, zo, " ".toList, zf, "\"| ".toList, z,
        "\n|class=\"fraction num ".toList, ff, "\"| ".toList, vn, "\n|class=\"fraction den ".toList, ff, "\"| ".toList, vd,
        "\n|class=\"fraction dec ".toList, vi, "\"| ".toList, ve] ++
        ["\n|class=\"weight num reduced\"| ".toList, wn, "\n|class=\"weight den reduced\"| ".toList, wd,
        "\n|class=\"weight dec ".toList, wi, "\"| ".toList, we, "\n|class=\"weight num unreduced\"| ".toList, wb, "\n|class=\"weight den unreduced\"| ".toList, lb,
        "\n|class=\"arity\"| ".toList, va, "\n|class=\"bundles".toList, ub, "\"| ".toList, nb, "\n|class=\"names\"| ".toList, nm]).flatten := by
  obtain ⟨g1, g2, g3, g4, g5, g6, g7, g8, g9, g10, g11, g12, g13, g14, g15, g16, g17, g18⟩ := get_all z zo zf vn vd ve vi wn wd we wi wb lb va ff nm nb ub
  generalize rowDict z zo zf vn vd ve vi wn wd we wi wb lb va ff nm nb ub = d at *
  unfold substitute
  rw [rowTemplate_parts, parts_mapM]
  · simp only [bind, Except.bind, pure, Except.pure]
    congr 1
    simp only [List.map_append, List.map_cons, List.map_nil, partText_text, partText_field g1, partText_field g2, partText_field g3, partText_field g4, partText_field g5, partText_field g6,
      partText_field g7, partText_field g8, partText_field g9, partText_field g10, partText_field g11, partText_field g12, partText_field g13, partText_field g14,
      partText_field g15, partText_field g16, partText_field g17, partText_field g18]
  · intro n hn
    rw [← rowTemplate_parts] at hn
    have this : n ∈ (templateParts rowTemplate none []).filterMap fun | .text _ => none | .field n => some n := List.mem_filterMap.2 ⟨_, hn, rfl⟩
    rw [rowTemplate_parts] at this
    replace this : n ∈ ["zhegalkin_oddness", "zhegalkin_font_size", "zhegalkin", "fraction_font_size", "vnum", "fraction_font_size", "vden", "vinterval", "vdec", "wnum",
      "wden", "winterval", "wdec", "wnum_big", "wden_big", "valency", "unibundle_class", "number_of_bundles", "names_cell"] := this
    rcases List.mem_cons.1 this with rfl | this
    · exact ⟨_, g2⟩
    rcases List.mem_cons.1 this with rfl | this
    · exact ⟨_, g3⟩
    rcases List.mem_cons.1 this with rfl | this
    · exact ⟨_, g1⟩
    rcases List.mem_cons.1 this with rfl | this
    · exact ⟨_, g15⟩
    rcases List.mem_cons.1 this with rfl | this
    · exact ⟨_, g4⟩
    rcases List.mem_cons.1 this with rfl | this
    · exact ⟨_, g15⟩
    rcases List.mem_cons.1 this with rfl | this
    · exact ⟨_, g5⟩
    rcases List.mem_cons.1 this with rfl | this
    · exact ⟨_, g7⟩
    rcases List.mem_cons.1 this with rfl | this
    · exact ⟨_, g6⟩
    rcases List.mem_cons.1 this with rfl | this
    · exact ⟨_, g8⟩
    rcases List.mem_cons.1 this with rfl | this
    · exact ⟨_, g9⟩
    rcases List.mem_cons.1 this with rfl | this
    · exact ⟨_, g11⟩
    rcases List.mem_cons.1 this with rfl | this
    · exact ⟨_, g10⟩
    rcases List.mem_cons.1 this with rfl | this
    · exact ⟨_, g12⟩
    rcases List.mem_cons.1 this with rfl | this
    · exact ⟨_, g13⟩
    rcases List.mem_cons.1 this with rfl | this
    · exact ⟨_, g14⟩
    rcases List.mem_cons.1 this with rfl | this
    · exact ⟨_, g18⟩
    rcases List.mem_cons.1 this with rfl | this
    · exact ⟨_, g17⟩
    rcases List.mem_cons.1 this with rfl | this
    · exact ⟨_, g16⟩
    cases this

/-! ## the values -/

theorem zhe_first {f : Boolf} (hf : Reach f) {z : Nat} (hz : f.zhe = .ok z) : (z % 2 ≠ 0) ↔ f.getItem 0 = .ok true := by
  obtain ⟨z', z1, z2, z3, _⟩ := C50_zhe f hf
  rw [hz] at z1
  cases z1
  have e : ((Finset.range (2 ^ f.adicity)).filter fun k => z.testBit k = true ∧ k &&& 0 = k) = if z.testBit 0 then {0} else ∅ := by
    ext k
    simp only [Finset.mem_filter, Finset.mem_range, Nat.and_zero]
    by_cases h0 : z.testBit 0 = true
    · rw [if_pos h0, Finset.mem_singleton]
      constructor
      · rintro ⟨_, _, h⟩
        exact h.symm
      · rintro rfl
        exact ⟨Nat.two_pow_pos _, h0, rfl⟩
    · rw [if_neg h0]
      simp only [Finset.notMem_empty, iff_false]
      rintro ⟨_, h1, rfl⟩
      exact h0 h1
  have := z3 0
  rw [this, Except.ok.injEq, decide_eq_true_iff]
  unfold OddMany
  rw [e, Nat.testBit_zero]
  by_cases h : z % 2 = 1
  · simp [h]
  · have h0 : z % 2 = 0 := by omega
    simp [h0]

/-- the value is below one half iff the first entry is false, and it is never one half -/
theorem value_half {f : Boolf} (hf : Obj f) {r : Rat} (hr : f.valueFract = .ok r) : r ≠ 1 / 2 ∧ (r < 1 / 2 ↔ f.getItem 0 = .ok false) := by
  have h := hf.good.toSound
  obtain ⟨c, c1, c2, c3⟩ := complement_spec h
  obtain ⟨c', r', s, u, v, d1, d2, d3, d4, _⟩ := C80_complement f hf
  rw [c1] at d1
  cases d1
  rw [hr] at d2
  cases d2
  have hc : Obj c := c2.reach.obj
  have lt1 := C80_value_order f c hf hc r s hr d3
  have lt2 := C80_value_order c f hc hf s r d3 hr
  have e0 : c.getItem 0 = .ok (!f.eval (0 : Nat).testBit) := by rw [getItem_eq c2.toSound, c3]
  have f0 : f.getItem 0 = .ok (f.eval (0 : Nat).testBit) := getItem_eq h 0
  rw [f0]
  cases hv : f.eval (0 : Nat).testBit with
  | false =>
    have : r < s := lt1.2 ⟨0, by rw [f0, hv], by rw [e0, hv]; rfl, fun i hi => by omega⟩
    exact ⟨by linarith, iff_of_true (by linarith) rfl⟩
  | true =>
    have : s < r := lt2.2 ⟨0, by rw [e0, hv]; rfl, by rw [f0, hv], fun i hi => by omega⟩
    exact ⟨by linarith, iff_of_false (by linarith) (by simp)⟩

theorem winterval_eq (T n : Nat) : wintervalOf ((T : Rat) / 2 ^ n) =
    match compare (2 * T) (2 ^ n) with | .lt => "below-half".toList | .eq => "exactly-half".toList | .gt => "above-half".toList := by
  have h0 : (0 : Rat) < 2 ^ n := by positivity
  have hlt : (T : Rat) / 2 ^ n < 1 / 2 ↔ 2 * T < 2 ^ n := by
    rw [div_lt_div_iff₀ h0 (by norm_num), one_mul, mul_comm]
    exact_mod_cast Iff.rfl
  have heq : (T : Rat) / 2 ^ n = 1 / 2 ↔ 2 * T = 2 ^ n := by
    rw [div_eq_div_iff h0.ne' (by norm_num), one_mul, mul_comm]
    exact_mod_cast Iff.rfl
  unfold wintervalOf
  rcases lt_trichotomy (2 * T) (2 ^ n) with h | h | h
  · rw [if_pos (hlt.2 h), compare_lt_iff_lt.2 h]
  · rw [if_neg (fun e => absurd (hlt.1 e) (by omega)), if_pos (heq.2 h), compare_eq_iff_eq.2 h]
  · rw [if_neg (fun e => absurd (hlt.1 e) (by omega)), if_neg (fun e => absurd (heq.1 e) (by omega)), compare_gt_iff_gt.2 h]

theorem intStr_toNat {z : Int} (h : 0 ≤ z) : intStr z = natStr z.toNat := by
  unfold intStr
  rw [if_neg (by omega)]

/-- what the values in the row of a function are -/
structure RowFor (decimalLength : Nat → Nat) (formatF formatG : Rat → List Char) (f : Boolf) (names : List Char) (r : TableRow) : Prop where
  zhegalkin : f.zhe = .ok r.zhegalkin
  odd : r.odd = true ↔ f.getItem 0 = .ok true
  above : r.above = true ↔ f.getItem 0 = .ok true
  value : r.vnum * (2 ^ 2 ^ f.adicity - 1) = bigEndian f f.adicity * r.vden
  valueReduced : r.vnum.Coprime r.vden ∧ 0 < r.vden
  weight : r.wnum * r.length = r.trueCount * r.wden
  weightReduced : r.wnum.Coprime r.wden ∧ 0 < r.wden
  trueCount : r.trueCount = truePlaces f f.adicity
  length : r.length = 2 ^ f.adicity
  half : r.half = compare (2 * r.trueCount) r.length
  arity : r.arity = f.adicity
  bundles : ∃ l, f.bundles = .ok l ∧ r.bundles = l.length
  names : r.names = names
  vdec : r.vdec = (formatF ((r.vnum : Rat) / r.vden)).drop 1
  wdec : r.wdec = (formatG ((r.wnum : Rat) / r.wden)).drop 1
  zhegalkinFont : r.zhegalkinFont = if 30 < decimalLength r.zhegalkin then "smaller".toList else if 15 < decimalLength r.zhegalkin then "small".toList else []
  fractionFont : r.fractionFont = if 30 < max (decimalLength r.vnum) (decimalLength r.vden) then "smaller".toList
    else if 15 < max (decimalLength r.vnum) (decimalLength r.vden) then "small".toList else []

theorem root_valency {f : Boolf} (hf : Reach f) (hroot : f.isRoot = true) : f.valency = f.adicity := by
  have h1 := (isRoot_iff hf.canon.toSound).1 hroot
  apply le_antisymm (by rw [hf.canon.val]; exact length_le_adicity hf.canon)
  rw [hf.canon.adic]
  intro x hx
  rw [h1] at hx
  exact List.mem_range.1 hx

/-- **C159.** `wiki_table_row` of a blightless root function fills all places of the template, and `VFractERROR` is never raised.  The value is above one half iff the Zhegalkin
index is odd (both mean that the first entry of the truth table is true).  The fractions are reduced, and the unreduced one consists of the number of true places and the
length of the truth table. -/
theorem C159_row (decimalLength : Nat → Nat) (formatF formatG : Rat → List Char) (f : Boolf) (hf : Reach f) (hb : f.isBlightless = .ok true) (hroot : f.isRoot = true)
    (names : List Char) : ∃ r, f.wikiTableRow decimalLength formatF formatG names = .ok r.text ∧ RowFor decimalLength formatF formatG f names r := by
  have hval := root_valency hf hroot
  obtain ⟨v, v1, v2⟩ := C80_value_fract f hf.obj
  obtain ⟨w, w1, w2⟩ := C80_weight_fract f hf.obj
  obtain ⟨z, hz⟩ := zhe_exists hf
  obtain ⟨b, c, b1, _, b3, _⟩ := C83_bloatless_blotless f hf
  rw [hb] at b3
  have hbl : b = true := by
    cases b
    · simp at b3
    · rfl
  obtain ⟨l, _, l1, _⟩ := (C88_bundles f hf).2 (hbl ▸ b1)
  have hv := value_half hf.obj v1
  have hv2 := v2 _ le_rfl
  have hw2 := w2 _ le_rfl
  generalize hn : f.adicity = n at *
  have d : (0 : Rat) < 2 ^ 2 ^ n - 1 := by
    have : (2 : Rat) ^ 1 ≤ 2 ^ 2 ^ n := pow_le_pow_right₀ (by norm_num) Nat.one_le_two_pow
    linarith
  have d' : (0 : Rat) < 2 ^ n := by positivity
  have hv0 : 0 ≤ v := by rw [hv2]; exact div_nonneg (Nat.cast_nonneg _) d.le
  have hw0 : 0 ≤ w := by rw [hw2]; exact div_nonneg (Nat.cast_nonneg _) d'.le
  have hvn : ((v.num.toNat : Nat) : Int) = v.num := Int.toNat_of_nonneg (Rat.num_nonneg.2 hv0)
  have hwn : ((w.num.toNat : Nat) : Int) = w.num := Int.toNat_of_nonneg (Rat.num_nonneg.2 hw0)
  have hvn' : ((v.num.toNat : Nat) : Rat) = v.num := by exact_mod_cast congrArg (Int.cast : Int → Rat) hvn
  have hwn' : ((w.num.toNat : Nat) : Rat) = w.num := by exact_mod_cast congrArg (Int.cast : Int → Rat) hwn
  have hvq : (v.num : Rat) / v.den = v := Rat.num_div_den v
  have hwq : (w.num : Rat) / w.den = w := Rat.num_div_den w
  have hvd : (0 : Rat) < v.den := by exact_mod_cast v.den_pos
  have hwd : (0 : Rat) < w.den := by exact_mod_cast w.den_pos
  have hbig : ((w.num : Rat) * (((2 ^ n : Nat) : Rat) / (w.den : Rat))).floor = (truePlaces f n : Int) := by
    have : (w.num : Rat) * (((2 ^ n : Nat) : Rat) / (w.den : Rat)) = ((truePlaces f n : Int) : Rat) := by
      rw [mul_div_assoc', mul_comm, mul_div_assoc, hwq, hw2]
      push_cast
      field_simp
    rw [this, Rat.floor_intCast]
  refine ⟨⟨z, decide (z % 2 ≠ 0), v.num.toNat, v.den, decide (¬ v < 1 / 2), (formatF ((v.num : Rat) / v.den)).drop 1, w.num.toNat, w.den, compare (2 * truePlaces f n) (2 ^ n),
    (formatG ((w.num : Rat) / w.den)).drop 1, truePlaces f n, 2 ^ n, n, l.length, names, zhegalkinFontSize (decimalLength z),
    fractionFontSize (decimalLength v.num.toNat) (decimalLength v.den)⟩, ?_, ?_⟩
  · unfold Boolf.wikiTableRow
    simp only [hb, orOther, bind, Except.bind, hroot, v1, w1, hz, l1, hval, not_true_eq_false, if_false]
    unfold vintervalOf
    rw [if_pos hv.1]
    simp only []
    rw [hbig]
    have hsub := fun z zo zf vn vd ve vi wn wd we wi wb lb va ff nm nb ub => substitute_row z zo zf vn vd ve vi wn wd we wi wb lb va ff nm nb ub
    unfold rowDict at hsub
    rw [hsub]
    have e1 : intStr v.num = natStr v.num.toNat := intStr_toNat (by omega)
    have e2 : intStr w.num = natStr w.num.toNat := intStr_toNat (by omega)
    have e3 : intStr (truePlaces f n : Int) = natStr (truePlaces f n) := intStr_toNat (by omega)
    have e4 : ∀ x y : List Char, (if z % 2 ≠ 0 then x else y) = if decide (z % 2 ≠ 0) = true then x else y := by
      intro x y
      simp only [decide_eq_true_iff]
    have e5 : ∀ x y : List Char, (if v < 1 / 2 then x else y) = if decide (¬ v < 1 / 2) = true then y else x := by
      intro x y
      by_cases h : v < 1 / 2
      · rw [if_pos h, if_neg (by simpa using h)]
      · rw [if_neg h, if_pos (by simpa using h)]
    have e6 : wintervalOf w = match compare (2 * truePlaces f n) (2 ^ n) with
        | .lt => "below-half".toList | .eq => "exactly-half".toList | .gt => "above-half".toList := by
      rw [hw2]
      exact winterval_eq _ _
    rw [e1, e2, e3, e4, e5, e6]
    rfl
  · refine ⟨hz, ?_, ?_, ?_, ⟨?_, v.den_pos⟩, ?_, ⟨?_, w.den_pos⟩, by rw [hn], by rw [hn], rfl, hn.symm, ⟨l, l1, rfl⟩, rfl, ?_, ?_, rfl, ?_⟩
    · rw [decide_eq_true_iff]
      exact zhe_first hf hz
    · rw [decide_eq_true_iff, hv.2, getItem_eq hf.canon.toSound]
      cases f.eval (0 : Nat).testBit <;> simp
    · have h1 : (v.num.toNat : Rat) * (2 ^ 2 ^ n - 1) = bigEndian f n * v.den := by
        rw [hvn', ← div_eq_div_iff hvd.ne' d.ne', hvq, hv2]
      have h2 : (2 : Rat) ^ 2 ^ n - 1 = ((2 ^ 2 ^ n - 1 : Nat) : Rat) := by
        rw [Nat.cast_sub Nat.one_le_two_pow]
        push_cast
        rfl
      rw [h2] at h1
      rw [hn]
      exact_mod_cast h1
    · have := v.reduced
      rwa [← hvn, Int.natAbs_natCast] at this
    · have h1 : (w.num.toNat : Rat) * 2 ^ n = truePlaces f n * w.den := by
        rw [hwn', ← div_eq_div_iff hwd.ne' d'.ne', hwq, hw2]
      exact_mod_cast h1
    · have := w.reduced
      rwa [← hwn, Int.natAbs_natCast] at this
    · rw [hvn']
    · rw [hwn']
    · unfold fractionFontSize
      simp only [lt_max_iff, gt_iff_lt]

/-- **C159.** Functions with blight and those that are not roots are rejected; blight is checked first. -/
theorem C159_errors (decimalLength : Nat → Nat) (formatF formatG : Rat → List Char) (f : Boolf) (names : List Char) :
    (f.isBlightless = .ok false → f.wikiTableRow decimalLength formatF formatG names = .error .blight) ∧
    (f.isBlightless = .ok true → f.isRoot = false → f.wikiTableRow decimalLength formatF formatG names = .error .spread) := by
  unfold Boolf.wikiTableRow
  constructor
  · intro h
    rw [h]
    rfl
  · intro h h'
    rw [h, h']
    rfl

/-- **C159.** So there is a row iff the function is a root and all of its arguments and pairs of arguments are independent in its true places. -/
theorem C159_iff (decimalLength : Nat → Nat) (formatF formatG : Rat → List Char) (f : Boolf) (hf : Reach f) (names : List Char) :
    (∃ s, f.wikiTableRow decimalLength formatF formatG names = .ok s) ↔ f.isRoot = true ∧
      (∀ x ∈ f.atomvals, (∃ key : Nat, f.getItem key = .ok true ∧ key.testBit x = true) ∧ ∃ key : Nat, f.getItem key = .ok true ∧ key.testBit x = false) ∧
      ∀ x ∈ f.atomvals, ∀ y ∈ f.atomvals, x ≠ y → (∃ key : Nat, f.getItem key = .ok true ∧ key.testBit x = key.testBit y) ∧
        ∃ key : Nat, f.getItem key = .ok true ∧ key.testBit x ≠ key.testBit y := by
  obtain ⟨b, c, _, _, b3, b4, b5⟩ := C83_bloatless_blotless f hf
  have herr := C159_errors decimalLength formatF formatG f names
  rw [← b4, ← b5]
  cases hb : (b && c) with
  | false =>
    rw [hb] at b3
    rw [herr.1 b3]
    cases b <;> cases c <;> simp_all
  | true =>
    rw [hb] at b3
    rw [Bool.and_eq_true] at hb
    obtain ⟨rfl, rfl⟩ := hb
    cases hr : f.isRoot with
    | false =>
      rw [herr.2 b3 hr]
      simp
    | true =>
      obtain ⟨r, r1, _⟩ := C159_row decimalLength formatF formatG f hf b3 hr names
      simp [r1]

example : ∃ f s, newTT (.str "0111".toList) = .ok f ∧ Reach f ∧ f.isRoot = true ∧ f.isConstant = false ∧
    f.wikiTableRow (fun _ => 1) (fun _ => ['0', '.']) (fun _ => ['0', '.']) "or".toList = .ok s := by
  obtain ⟨_, e1, e2⟩ := newTT_explicit "0111".toList [false, true, true, true] [0, 1] 2 (by decide) (by decide) (by decide) (by intro n; simp; omega) (by decide) (by decide)
  obtain ⟨s, hs⟩ := (C159_iff (fun _ => 1) (fun _ => ['0', '.']) (fun _ => ['0', '.']) _ e2.reach "or".toList).2 ⟨by decide, fun x hx => by
    obtain rfl | rfl : x = 0 ∨ x = 1 := by simpa using hx
    · exact ⟨⟨1, by decide, by decide⟩, 2, by decide, by decide⟩
    · exact ⟨⟨2, by decide, by decide⟩, 1, by decide, by decide⟩, fun x hx y hy hxy => by
    obtain rfl | rfl : x = 0 ∨ x = 1 := by simpa using hx
    · obtain rfl | rfl : y = 0 ∨ y = 1 := by simpa using hy
      · exact absurd rfl hxy
      · exact ⟨⟨3, by decide, by decide⟩, 2, by decide, by decide⟩
    · obtain rfl | rfl : y = 0 ∨ y = 1 := by simpa using hy
      · exact ⟨⟨3, by decide, by decide⟩, 2, by decide, by decide⟩
      · exact absurd rfl hxy⟩
  exact ⟨_, s, e1 (by decide), e2.reach, by decide, by decide, hs⟩

end Verif.BF
