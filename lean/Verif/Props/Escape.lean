import Verif.Lemmas.Entities
import Verif.Spec.Js
import Verif.Lemmas.Numeric

/-! Property theorems for escaping and character references (C01, C02, C10, C13, C14). -/
namespace JH

/-- A concrete entity table, used only to show that the hypotheses of the theorems are satisfiable. -/
def EntTables.sample : EntTables where
  named := fun s =>
    if s = "amp".toList then some ['&'] else if s = "lt".toList then some ['<']
    else if s = "gt".toList then some ['>'] else if s = "quot".toList then some ['"']
    else if s = "not".toList then some ['¬'] else if s = "notin".toList then some ['∉'] else none
  legacy := fun s => s = "amp".toList || s = "lt".toList || s = "gt".toList || s = "quot".toList || s = "not".toList
  maxNamed := 6
  maxLegacy := 4
  named_amp := by decide
  named_lt := by decide
  named_gt := by decide
  named_quot := by decide
  named_nil := by decide
  legacy_nil := by decide
  maxNamed_ge := by decide

/-! ### C01 -/

/-- C01: escaped text decodes (in text mode) to exactly the original, whatever text follows. -/
theorem C01_text_roundtrip (U : Uni) (T : EntTables) (t : Str) :
    decodeEntities U T false (escapeText t) = some t := by
  have := decode_flatMap U T false esc1 (decode_esc1 U T false) t []
  simpa [escapeText_eq, decodeEntities_nil] using this

/-- C01: escaped text contains neither `<` nor `>`. -/
theorem C01_text_no_markup (t : Str) : '<' ∉ escapeText t ∧ '>' ∉ escapeText t := by
  rw [escapeText_eq]
  constructor <;>
  · simp only [List.mem_flatMap, not_exists, not_and]
    intro c _
    unfold esc1
    split; · decide
    split; · decide
    split; · decide
    simp_all [eq_comm]

/-- C01: distinct texts have distinct serializations. -/
theorem C01_text_injective (t u : Str) (h : escapeText t = escapeText u) : t = u := by
  have h1 := C01_text_roundtrip Uni.sample EntTables.sample t
  rw [h, C01_text_roundtrip] at h1
  exact (Option.some.inj h1).symm

example : escapeText "a < b &amp; c".toList = "a &lt; b &amp;amp; c".toList := by decide
example : decodeEntities Uni.sample EntTables.sample false "&lt;&notit; &#65;&ampx".toList
    = some "<¬it; A&x".toList := by decide

/-! ### C02 -/

/-- C02: an escaped quoted attribute value decodes (in attribute mode) to exactly the original. -/
theorem C02_attr_roundtrip (U : Uni) (T : EntTables) (q : Char) (hq : q = '"' ∨ q = '\'') (v : Str) :
    decodeEntities U T true (escapeAttr q v) = some v := by
  have := decode_flatMap U T true (escA1 q) (decode_escA1 U T true hq) v []
  simpa [escapeAttr_eq hq, decodeEntities_nil] using this

/-- C02: an escaped attribute value contains neither its quote nor `<` nor `>`. -/
theorem C02_attr_contained (q : Char) (hq : q = '"' ∨ q = '\'') (v : Str) :
    q ∉ escapeAttr q v ∧ '<' ∉ escapeAttr q v ∧ '>' ∉ escapeAttr q v := by
  rw [escapeAttr_eq hq]
  refine ⟨?_, ?_, ?_⟩ <;>
  · simp only [List.mem_flatMap, not_exists, not_and]
    intro c _
    unfold escA1 esc1
    rcases hq with rfl | rfl <;>
    · repeat' split
      all_goals first
        | decide
        | simp_all [eq_comm]

/-- C02: the quote chosen by the serializer is always `"` or `'`, so C02 applies to every written value. -/
theorem C02_quote_choice (forced : Option Char) (v : Str) :
    chooseAttrQuote forced v = '"' ∨ chooseAttrQuote forced v = '\'' := by
  unfold chooseAttrQuote
  repeat' split
  all_goals simp_all

example : escapeAttr '"' "x\" onload='y' &lt".toList = "x&quot; onload='y' &amp;lt".toList := by decide
example : decodeEntities Uni.sample EntTables.sample true "&not=1&notx &not;".toList
    = some "&not=1&notx ¬".toList := by decide

/-! ### C10 -/

theorem evalJs_esc (q c : Char) (hq : q = '"' ∨ q = '\'') (s : Str) :
    Spec.evalJs q (jsEsc q c ++ s) = (Spec.evalJs q s).map (c :: ·) := by
  unfold jsEsc
  split; · rename_i h; subst h; simp [Spec.evalJs]
  split; · rename_i h; subst h; rcases hq with rfl | rfl <;> simp [Spec.evalJs]
  split; · rename_i h; subst h; simp [Spec.evalJs]
  split; · rename_i h; subst h; simp [Spec.evalJs]
  split; · rename_i h; subst h; simp [Spec.evalJs]
  split; · rename_i h; subst h; simp [Spec.evalJs]
  split; · rename_i h; subst h; simp [Spec.evalJs]
  split; · rename_i h; subst h; simp [Spec.evalJs, Spec.jsHex]
  split; · rename_i h; subst h; simp [Spec.evalJs, Spec.jsHex]
  split; · rename_i h; subst h; simp [Spec.evalJs, Spec.jsHex]
  split; · rename_i h; subst h; simp [Spec.evalJs, Spec.jsHex]
  rename_i h1 h2 h3 h4 _ _ _ _ _ h5 h6
  rw [List.singleton_append, Spec.evalJs.eq_def]
  split
  all_goals try (simp_all; done)

/-- C10: evaluating the escaped string as a JavaScript string literal body gives back the value. -/
theorem C10_js_roundtrip (q : Char) (hq : q = '"' ∨ q = '\'') (v : Str) :
    ∃ e, escapeJs q v = some e ∧ Spec.evalJs q e = some v := by
  refine ⟨v.flatMap (jsEsc q), by rcases hq with rfl | rfl <;> simp [escapeJs], ?_⟩
  induction v with
  | nil => simp [Spec.evalJs]
  | cons c v ih => rw [List.flatMap_cons, evalJs_esc q c hq, ih]; rfl

/-- C10: the escaped string contains no raw line terminator and no `<` or `>`
(so neither `</script` nor `<!--` can appear). -/
theorem C10_js_contained (q : Char) (v e : Str) (h : escapeJs q v = some e) :
    ∀ c ∈ e, c ≠ '\n' ∧ c ≠ '\r' ∧ c ≠ '<' ∧ c ≠ '>' ∧ c ≠ '\u2028' ∧ c ≠ '\u2029' := by
  unfold escapeJs at h
  split at h
  · rename_i hq
    simp only [Bool.or_eq_true, decide_eq_true_eq] at hq
    simp only [Option.some.injEq] at h; subst h
    intro d hd
    simp only [List.mem_flatMap] at hd
    obtain ⟨c, _, hd⟩ := hd
    let P : Str → Prop := fun l => ∀ d ∈ l,
      d ≠ '\n' ∧ d ≠ '\r' ∧ d ≠ '<' ∧ d ≠ '>' ∧ d ≠ '\u2028' ∧ d ≠ '\u2029'
    have hP : P (jsEsc q c) := by
      unfold jsEsc
      refine ite_pred P (fun _ => by decide) fun _ => ?_
      refine ite_pred P (fun _ => by rcases hq with rfl | rfl <;> decide) fun _ => ?_
      refine ite_pred P (fun _ => by decide) fun hn => ?_
      refine ite_pred P (fun _ => by decide) fun hr => ?_
      refine ite_pred P (fun _ => by decide) fun _ => ?_
      refine ite_pred P (fun _ => by decide) fun _ => ?_
      refine ite_pred P (fun _ => by decide) fun _ => ?_
      refine ite_pred P (fun _ => by decide) fun hlt => ?_
      refine ite_pred P (fun _ => by decide) fun hgt => ?_
      refine ite_pred P (fun _ => by decide) fun h8 => ?_
      refine ite_pred P (fun _ => by decide) fun h9 => ?_
      intro d hd
      rw [List.mem_singleton] at hd
      subst hd
      exact ⟨hn, hr, hlt, hgt, h8, h9⟩
    exact hP d hd
  · simp at h

/-- C10: an unknown quote character is refused. -/
theorem C10_js_bad_quote (q : Char) (hq : q ≠ '"' ∧ q ≠ '\'') (v : Str) : escapeJs q v = none := by
  simp [escapeJs, hq.1, hq.2]

example : escapeJs '"' "a\"</script>\n\\".toList = some "a\\\"\\u003c/script\\u003e\\n\\\\".toList := by decide
example : Spec.evalJs '"' "a\"b".toList = none := by decide

/-! ### C13 -/

/-- C13 (decimal): a reference made of ASCII digits of any length decodes, in both modes, to the one character the
HTML standard assigns to that number. -/
theorem C13_decimal (U : Uni) (T : EntTables) (attr : Bool) (ds s : Str) (hne : ds ≠ [])
    (hds : ∀ c ∈ ds, isDigitC c = true) :
    decodeEntities U T attr ("&#".toList ++ ds ++ ";".toList ++ s) =
      (decodeEntities U T attr s).map (Char.ofNat (Spec.numericChar (Spec.number 10 ds)) :: ·) := by
  have hrun : ∀ c ∈ ds, U.isDigit c = true := by
    intro c hc
    have := (isDigitC_iff c).1 (hds c hc)
    rw [U.isDigit_ascii c (by rw [isAscii_iff]; omega)]; exact hds c hc
  have hsemi : U.isDigit ';' = false := by rw [U.isDigit_ascii _ (by decide)]; decide
  have hx : hexMark (ds ++ ';' :: s) = false := by
    cases ds with
    | nil => exact absurd rfl hne
    | cons c r =>
      have := (isDigitC_iff c).1 (hds c (by simp))
      simp only [List.cons_append, hexMark, Bool.or_eq_false_iff, decide_eq_false_iff_not]
      constructor <;> (rintro rfl; exact absurd this (by decide))
  have hd := decodeNumeric_spec U false ds (by simpa [okDigit] using hds)
  have he : ds.isEmpty = false := by cases ds <;> simp_all
  have : refAt U T attr ('#' :: (ds ++ ';' :: s)) =
      some ([Char.ofNat (Spec.numericChar (Spec.number 10 ds))], s) := by
    simp only [refAt, numericRef, hx, Bool.false_eq_true, if_false, numericTail]
    rw [List.takeWhile_append_of_pos hrun, List.dropWhile_append_of_pos hrun]
    simp [hsemi, hd, baseOf]
    cases ds <;> simp_all
  have e : "&#".toList ++ ds ++ ";".toList ++ s = '&' :: '#' :: (ds ++ ';' :: s) := by simp
  rw [e, decodeEntities_amp, this]
  rfl

/-- C13 (hexadecimal): the same for `&#x...;` and `&#X...;`. -/
theorem C13_hexadecimal (U : Uni) (T : EntTables) (attr : Bool) (x : Char) (hx : x = 'x' ∨ x = 'X')
    (ds s : Str) (hne : ds ≠ []) (hds : ∀ c ∈ ds, isHexC c = true) :
    decodeEntities U T attr ("&#".toList ++ [x] ++ ds ++ ";".toList ++ s) =
      (decodeEntities U T attr s).map (Char.ofNat (Spec.numericChar (Spec.number 16 ds)) :: ·) := by
  have hsemi : isHexC ';' = false := by decide
  have hm : hexMark (x :: (ds ++ ';' :: s)) = true := by simpa [hexMark] using hx
  have hd := decodeNumeric_spec U true ds (by simpa [okDigit] using hds)
  have he : ds.isEmpty = false := by cases ds <;> simp_all
  have : refAt U T attr ('#' :: x :: (ds ++ ';' :: s)) =
      some ([Char.ofNat (Spec.numericChar (Spec.number 16 ds))], s) := by
    simp only [refAt, numericRef, hm, if_true, numericTail, List.drop_one, List.tail_cons]
    rw [List.takeWhile_append_of_pos hds, List.dropWhile_append_of_pos hds]
    simp [hsemi, hd, baseOf]
    cases ds <;> simp_all
  have e : "&#".toList ++ [x] ++ ds ++ ";".toList ++ s = '&' :: '#' :: x :: (ds ++ ';' :: s) := by simp
  rw [e, decodeEntities_amp, this]
  rfl

/-- C13: the character produced is never NUL and its code point is always the one the standard assigns
(no surrogate, nothing above U+10FFFF, no value lost in the conversion to a character). -/
theorem C13_valid_char (n : Nat) :
    (Char.ofNat (Spec.numericChar n)).toNat = Spec.numericChar n ∧ Spec.numericChar n ≠ 0 := by
  obtain ⟨h0, h1⟩ := numericChar_valid n
  refine ⟨?_, h0⟩
  have hv : (Spec.numericChar n).isValidChar := by
    rcases h1 with h1 | h1
    · exact Or.inl h1
    · exact Or.inr ⟨by omega, by omega⟩
  simp [Char.ofNat, hv, Char.toNat, Char.ofNatAux]

/-- C13 negation: decoding is *not* total. `'²'.isdigit()` holds but `int('²')` raises, so the input `&#²;` makes the
decoder fail with an uncaught ValueError (core/entities.py:309 and 220). -/
theorem C13_total_fails :
    ∃ (U : Uni) (s : Str), ∀ T attr, decodeEntities U T attr s = none := by
  refine ⟨Uni.sample, "&#²;".toList, fun T attr => ?_⟩
  show decodeEntities Uni.sample T attr ('&' :: '#' :: '²' :: ';' :: []) = none
  rw [decodeEntities_amp]
  have : refAt Uni.sample T attr ['#', '²', ';'] = none := by
    show numericRef Uni.sample ['²', ';'] = none
    decide
  rw [this]

/-- C13/C14 (partial): decoding succeeds on every text all of whose `isdigit()` characters are accepted by `int()`
(in particular on every text whose only digits are ASCII). Missing from the full statement: the texts excluded by this
hypothesis, where the code really raises (`C13_total_fails`). -/
theorem C13_total_partial (U : Uni) (T : EntTables) (attr : Bool) (s : Str)
    (h : ∀ c ∈ s, U.isDigit c = true → (U.decVal c).isSome = true) :
    ∃ t, decodeEntities U T attr s = some t := by
  have main : ∀ n (s : Str), s.length < n → (∀ c ∈ s, U.isDigit c = true → (U.decVal c).isSome = true) →
      ∃ t, decodeEntities U T attr s = some t := by
    intro n
    induction n with
    | zero => intro s hs; omega
    | succ n ih =>
      intro s hs h
      cases s with
      | nil => exact ⟨[], rfl⟩
      | cons c cs =>
        by_cases hc : c = '&'
        · subst hc
          rw [decodeEntities_amp]
          cases hr : refAt U T attr cs with
          | none => exact absurd hr (refAt_total U T attr cs (fun c hc => h c (by simp [hc])))
          | some p =>
            obtain ⟨o, r⟩ := p
            have hl := refAt_length hr
            have hsuf := (refAt_suffix hr).subset
            obtain ⟨t, ht⟩ := ih r (by simp at hs; omega) (fun c hc => h c (by simp [hsuf hc]))
            exact ⟨o ++ t, by simp [ht]⟩
        · obtain ⟨t, ht⟩ := ih cs (by simp at hs; omega) (fun c hc => h c (by simp [hc]))
          exact ⟨c :: t, by rw [decodeEntities_cons _ _ _ _ _ hc, ht]; rfl⟩
  exact main (s.length + 1) s (by omega) h

example : decodeEntities Uni.sample EntTables.sample false "&#0000000000000000000065;&#x80;&#99999999999999999999;".toList
    = some "A€\ufffd".toList := by decide
example : ∀ c ∈ "&#12; x".toList, Uni.sample.isDigit c = true → (Uni.sample.decVal c).isSome = true := by decide

/-! ### C14 -/

/-- C14: text without `&` is unchanged by decoding, in both modes. -/
theorem C14_no_amp_unchanged (U : Uni) (T : EntTables) (attr : Bool) (s : Str) (h : '&' ∉ s) :
    decodeEntities U T attr s = some s := by
  have := decode_append_plain U T attr s [] h
  simpa [decodeEntities_nil] using this

/-- C14: the part before the first `&` is copied verbatim. -/
theorem C14_prefix_kept (U : Uni) (T : EntTables) (attr : Bool) (a s : Str) (h : '&' ∉ a) :
    decodeEntities U T attr (a ++ s) = (decodeEntities U T attr s).map (a ++ ·) :=
  decode_append_plain U T attr a s h

example : decodeEntities Uni.sample EntTables.sample false "a;b#c &x".toList = some "a;b#c &x".toList := by decide

end JH
