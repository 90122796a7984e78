import Verif.Props.CleanUrl
import Verif.Props.Serialize
/-! C98: output contexts. -/
namespace JH
open Spec

/-- The markup `to_html` computes before it looks at the context. -/
theorem context_html (U : Uni) (ctx : Option Str) (p : Option (Nat × Nat)) (c : OutContext) (q : Char) (n : Node) :
    toHtmlContext U ctx p c q n = (toHtmlContext U ctx p .html q n).bind fun html => inContext U q n html c := by
  unfold toHtmlContext
  split
  · rfl
  · simp only [inContext, Option.bind_some]

/-- C98: the JavaScript context returns, for a valid quote, the body of a string literal whose value is the markup of the node; it has no raw
line terminator and no `<` or `>`, so it cannot end the surrounding script. -/
theorem C98_js (U : Uni) (ctx : Option Str) (p : Option (Nat × Nat)) (q : Char) (hq : q = '"' ∨ q = '\'') (n : Node) (html : Str)
    (hm : toHtmlContext U ctx p .html q n = some html) :
    ∃ e, toHtmlContext U ctx p .jsString q n = some e ∧ evalJs q e = some html ∧
      ∀ c ∈ e, c ≠ '\n' ∧ c ≠ '\r' ∧ c ≠ '<' ∧ c ≠ '>' ∧ c ≠ '\u2028' ∧ c ≠ '\u2029' := by
  obtain ⟨e, h1, h2⟩ := C10_js_roundtrip q hq html
  refine ⟨e, ?_, h2, C10_js_contained q html e h1⟩
  rw [context_html, hm]
  exact h1

/-- C98: the attribute context returns, for a valid quote, text that has neither the quote nor `<` nor `>` and that an HTML parser reads, in
an attribute value, as the markup of the node. -/
theorem C98_attr (U : Uni) (T : EntTables) (ctx : Option Str) (p : Option (Nat × Nat)) (q : Char) (hq : q = '"' ∨ q = '\'') (n : Node)
    (html : Str) (hm : toHtmlContext U ctx p .html q n = some html) :
    ∃ e, toHtmlContext U ctx p .attrValue q n = some e ∧ decodeEntities U T true e = some html ∧ q ∉ e ∧ '<' ∉ e ∧ '>' ∉ e := by
  refine ⟨escapeAttr q html, ?_, C02_attr_roundtrip U T q hq html, C02_attr_contained q hq html⟩
  rw [context_html, hm]
  simp only [Option.bind_some, inContext, escapeAttrCall]
  rw [if_pos (by rcases hq with rfl | rfl <;> rfl)]

theorem decode_amp (U : Uni) (T : EntTables) (s : Str) :
    decodeEntities U T true (s.flatMap (fun c => if c = '&' then c%"&amp;" else [c])) = some s := by
  have := decode_flatMap U T true (fun c => if c = '&' then c%"&amp;" else [c]) (by
    intro c r
    by_cases h : c = '&'
    · subst h
      rw [if_pos rfl]
      exact decode_esc1 U T true '&' r
    · rw [if_neg h]
      exact C14_prefix_kept U T true [c] r (by simpa using fun e => h e.symm)) s []
  simpa [decodeEntities_nil] using this

/-- C98: the URL context returns text that is safe in a quoted attribute and that an HTML parser followed by percent-decoding reads as the
text of the node: its text pieces, each stripped, the empty ones left out, joined by one space. The quote is irrelevant. -/
theorem C98_url (U : Uni) (T : EntTables) (ctx : Option Str) (p : Option (Nat × Nat)) (q : Char) (n : Node)
    (html : Str) (hm : toHtmlContext U ctx p .html q n = some html) :
    ∃ e u, toHtmlContext U ctx p .url q n = some e ∧ '"' ∉ e ∧ '\'' ∉ e ∧ '<' ∉ e ∧ '>' ∉ e ∧ decodeEntities U T true e = some u ∧
      (percentDecode u).bind utf8Decode =
        some (stripP U.isSpace (join c%" " (((texts n).map (stripP U.isSpace)).filter fun d => !d.isEmpty))) := by
  have ht := C57_text_stripped (stripP U.isSpace) rfl c%" " n
  generalize join c%" " (((texts n).map (stripP U.isSpace)).filter fun d => !d.isEmpty) = t at ht ⊢
  have hc : ∀ x ∈ escapeUrlAttr (stripP U.isSpace t), x ≠ '"' ∧ x ≠ '\'' ∧ x ≠ '<' ∧ x ≠ '>' := by
    intro x hx
    rw [(C11_attr_form _).1, List.mem_flatMap] at hx
    obtain ⟨c, hc, hx⟩ := hx
    split at hx
    · have : ∀ y ∈ c%"&amp;", y ≠ '"' ∧ y ≠ '\'' ∧ y ≠ '<' ∧ y ≠ '>' := by decide
      exact this x hx
    · simp only [List.mem_singleton] at hx
      subst hx
      rcases C11_alphabet _ x hc with h | h | h
      · refine ⟨?_, ?_, ?_, ?_⟩ <;> rintro rfl <;> exact absurd h (by decide)
      · refine ⟨?_, ?_, ?_, ?_⟩ <;> rintro rfl <;> exact absurd h (by decide)
      · refine ⟨?_, ?_, ?_, ?_⟩ <;> rintro rfl <;> exact absurd h (by decide)
  refine ⟨escapeUrlAttr (stripP U.isSpace t), escapeUrl (stripP U.isSpace t), ?_, fun h => (hc _ h).1 rfl, fun h => (hc _ h).2.1 rfl,
    fun h => (hc _ h).2.2.1 rfl, fun h => (hc _ h).2.2.2 rfl, ?_, C11_roundtrip _⟩
  · rw [context_html, hm]
    simp only [Option.bind_some, inContext]
    rw [ht]
  · rw [(C11_attr_form _).1]
    exact decode_amp U T _

/-- C98: a quote other than `"` and `'` is refused in the two contexts that use it. -/
theorem C98_bad_quote (U : Uni) (ctx : Option Str) (p : Option (Nat × Nat)) (q : Char) (hq : q ≠ '"' ∧ q ≠ '\'') (n : Node) :
    toHtmlContext U ctx p .jsString q n = none ∧ toHtmlContext U ctx p .attrValue q n = none := by
  rw [context_html U ctx p .jsString, context_html U ctx p .attrValue]
  cases toHtmlContext U ctx p .html q n with
  | none => exact ⟨rfl, rfl⟩
  | some html => exact ⟨C10_js_bad_quote q hq html, by simp [inContext, escapeAttrCall, hq.1, hq.2]⟩

/-- C98: `escape_html_text_in_js_string` returns the body of a string literal whose value has no `<` and which an HTML parser reads as
exactly the given text, so assigning it to `innerHTML` creates no markup. -/
theorem C98_text_in_js (U : Uni) (T : EntTables) (q : Char) (hq : q = '"' ∨ q = '\'') (v : Str) :
    ∃ e h, escapeTextJs q v = some e ∧ evalJs q e = some h ∧ '<' ∉ h ∧ decodeEntities U T false h = some v ∧ '<' ∉ e ∧ '>' ∉ e := by
  obtain ⟨e, h1, h2⟩ := C10_js_roundtrip q hq (escapeText v)
  have hc := C10_js_contained q _ e h1
  exact ⟨e, escapeText v, h1, h2, (C01_text_no_markup v).1, C01_text_roundtrip U T v, fun h => (hc _ h).2.2.1 rfl, fun h => (hc _ h).2.2.2.1 rfl⟩

/-- C98: `escape_url_in_js_string` returns the body of a string literal whose value percent-decodes to the given text. -/
theorem C98_url_in_js (q : Char) (hq : q = '"' ∨ q = '\'') (v : Str) :
    ∃ e u, escapeUrlJs q v = some e ∧ evalJs q e = some u ∧ (percentDecode u).bind utf8Decode = some v ∧ '<' ∉ e ∧ '>' ∉ e := by
  obtain ⟨e, h1, h2⟩ := C10_js_roundtrip q hq (escapeUrl v)
  have hc := C10_js_contained q _ e h1
  exact ⟨e, escapeUrl v, h1, h2, C11_roundtrip v, fun h => (hc _ h).2.2.1 rfl, fun h => (hc _ h).2.2.2.1 rfl⟩

/-! Concrete cases. -/

def contextSample : Node := .elem c%"p" (some c%"html") [(c%"title", some c%"a\"b")] [.text c%" x & <y> ", .text c%"\u2028z"] false []

example : toHtmlContext Uni.sample none none .html '"' contextSample = some c%"<p title='a\"b'> x &amp; &lt;y&gt; \u2028z</p>" := by decide +kernel
example : toHtmlContext Uni.sample none none .jsString '\'' contextSample =
    some c%"\\u003cp title=\\'a\"b\\'\\u003e x &amp; &lt;y&gt; \\u2028z\\u003c/p\\u003e" := by decide +kernel
example : toHtmlContext Uni.sample none none .attrValue '"' contextSample =
    some c%"&lt;p title='a&quot;b'&gt; x &amp;amp; &amp;lt;y&amp;gt; \u2028z&lt;/p&gt;" := by decide +kernel
example : toHtmlContext Uni.sample none none .url '"' contextSample = some c%"x%20&amp;%20%3Cy%3E%20%E2%80%A8z" := by decide +kernel
example : toHtmlContext Uni.sample none (some (0, 2)) .jsString '`' contextSample = none := by decide +kernel
example : escapeTextJs '"' c%"<b>\"&" = some c%"&lt;b&gt;\\\"&amp;" := by decide +kernel
example : escapeUrlJs '"' c%"/a b?x=\"é" = some c%"/a%20b?x=%22%C3%A9" := by decide +kernel

end JH
