import Verif.Lemmas.PrettyDef
import Verif.Props.Stream

/-! C73, C74: pretty printing. -/
namespace JH
open Spec

/-- C73: whatever the indentation, the pretty-printed text of a node is the compact text of a reformatted version of it: the same tags,
attributes, comments, processing instructions and doctypes in the same order and nesting, preformatted elements untouched, and
every run of text with the same words. -/
theorem C73_pretty_reformats (U : Uni) (size indent : Nat) (n : Node) (s : Str) (h : toHtmlPretty U size none indent n = some s)
    (hr : RawIsText U n) : ∃ ks, Reformatted U.isSpace [n] ks ∧ toHtmlCompact U none (.doc ks) = .ok s := by
  obtain ⟨ks, h1, h2, _⟩ := pretty_out U size n hr none (plain_none U) indent s h
  exact ⟨ks, h1, by rw [C12_document_order, markup, h2]⟩

/-- C73: the same for a whole document. -/
theorem C73_pretty_document (U : Uni) (size indent : Nat) (kids : List Node) (s : Str) (h : toHtmlPrettyDoc U size indent kids = some s)
    (hr : ∀ k ∈ kids, RawIsText U k) : ∃ ks, Reformatted U.isSpace kids ks ∧ toHtmlCompact U none (.doc ks) = .ok s := by
  obtain ⟨ks, h1, h2, _⟩ := joinKids_out (plain_none U) size indent false kids
    (fun n hn s hs => pretty_out U size n (hr n hn) none (plain_none U) indent s hs) s h
  exact ⟨ks, h1, by rw [C12_document_order, markup, h2]⟩

/-- C73: pretty printing raises exactly when compact serialization does. -/
theorem C73_pretty_refuses (U : Uni) (size indent : Nat) (n : Node) (hr : RawIsText U n) :
    toHtmlPretty U size none indent n = none ↔ toHtmlCompact U none n = .error := by
  rw [C12_document_order]
  have h1 := pretty_good U size n none
  have h2 := pretty_out U size n hr none (plain_none U) indent
  rw [toHtmlPretty]
  cases hp : pretty U size none indent false n with
  | none =>
    cases hm : markup U none n with
    | none => simp
    | some m =>
      have := h1 (by rw [hm]; rfl) none indent false
      rw [hp] at this; cases this
  | some s =>
    obtain ⟨ks, g1, g2, _⟩ := h2 s hp
    have := markupL_all (reformatted_some g1 none none (by rw [g2]; rfl)) n (by simp)
    obtain ⟨m, hm⟩ := Option.isSome_iff_exists.1 this
    rw [hm]; simp

/-- C73: reading pretty-printed text gives the events of the reformatted version. -/
theorem C73_pretty_stream (U : Uni) (T : EntTables) (K : StreamTables) (size indent : Nat) (n : Node) (s : Str)
    (h : toHtmlPretty U size none indent n = some s) (hr : RawIsText U n) (hread : Readable U n) :
    ∃ ks, Reformatted U.isSpace [n] ks ∧ stream U T K s = .ok (mergeText [] (ks.flatMap (events U K))) := by
  obtain ⟨ks, h1, h2, h3⟩ := pretty_out U size n hr none (plain_none U) indent s h
  refine ⟨ks, h1, C53_stream_of_forest U T K ks s (by rw [C12_document_order, markup, h2]) ?_⟩
  have hk : ReadableL U ks := h3 (by rw [readable_single]; exact hread)
  intro k hm
  clear h1 h2 h3
  induction ks with
  | nil => simp at hm
  | cons x ks ih =>
    rw [ReadableL] at hk
    rcases List.mem_cons.1 hm with rfl | hm
    · exact hk.1
    · exact ih hk.2 hm

/-- A small document for the examples: a division with text, an inline element, a paragraph and preformatted text. -/
def prettySample : Node :=
  .elem c%"div" (some c%"html") [] [.text c%"one  two\n", .elem c%"p" (some c%"html") [] [.text c%" a & b "] false [], .text c%"\n",
    .elem c%"pre" (some c%"html") [] [.text c%"  x\n y"] false []] false []

example : toHtmlPretty Uni.sample 2 none 0 prettySample =
    some c%"<div>\n  one  two\n  <p>a &amp; b</p>\n  <pre>  x\n y</pre>\n</div>" := by decide +kernel
example : RawIsText Uni.sample prettySample := by
  simp only [prettySample, RawIsText, RawIsTextL, and_true, true_and]
  refine ⟨?_, ?_, ?_⟩ <;> (intro h; exact absurd h (by decide +kernel))
example : Readable Uni.sample prettySample := by
  simp only [prettySample, Readable, ReadableL, and_true, true_and]
  refine ⟨by decide, by decide +kernel, ?_⟩
  rw [if_neg (by decide +kernel), if_neg (by decide +kernel), if_neg (by decide +kernel), if_neg (by decide +kernel)]
  refine ⟨⟨by decide, by decide +kernel, ?_⟩, by decide, by decide +kernel, ?_⟩ <;>
    rw [if_neg (by decide +kernel), if_neg (by decide +kernel), if_neg (by decide +kernel), if_neg (by decide +kernel)] <;> trivial

/-- The texts among the events. -/
def eventTexts : List Event → List Str
  | [] => []
  | .text d :: es => d :: eventTexts es
  | _ :: es => eventTexts es

/-- The words of the text of a node, before and after writing it and reading it back. -/
def SameWords (U : Uni) (T : EntTables) (K : StreamTables) (n : Node) : Prop :=
  ∀ s es, toHtmlPretty U 2 none 0 n = some s → stream U T K s = .ok es →
    wordsOf U.isSpace (eventTexts es).flatten = wordsOf U.isSpace (texts n).flatten

/-- C73: the condition on raw text is needed. Text beside a comment in an `xmp` element made by hand is written with character
references, which are not read back in raw text. -/
theorem C73_raw_mixed_fails : ¬ ∀ (U : Uni) (T : EntTables) (K : StreamTables) (d e : Str),
    ∀ s es, toHtmlPretty U 2 none 0 (.elem c%"xmp" (some c%"html") [] [.text d, .comment e] false []) = some s → stream U T K s = .ok es →
      ∃ r, (eventTexts es).flatten = d ++ r := by
  intro h
  obtain ⟨r, hr⟩ := h Uni.sample EntTables.sample StreamTables.sample c%"a<b" c%"c" c%"<xmp>a&lt;b<!--c--></xmp>"
    [.start c%"xmp" [], .text c%"a&lt;b<!--c-->", .end c%"xmp"] (by decide +kernel) (by decide +kernel)
  have := congrArg (List.take 3) hr
  simp [eventTexts] at this

/-- C74 fails: a line break between a text and an inline element is removed, and two words become one
(`Hello⏎<b>world</b>` is written `Hello<b>world</b>`). -/
theorem C74_words_joined_fails : ¬ ∀ (U : Uni) (T : EntTables) (K : StreamTables) (d e : Str),
    SameWords U T K (.elem c%"p" (some c%"html") [] [.text d, .elem c%"b" (some c%"html") [] [.text e] false []] false []) := by
  intro h
  have := h Uni.sample EntTables.sample StreamTables.sample c%"Hello\n" c%"world" c%"<p>Hello<b>world</b></p>"
    [.start c%"p" [], .text c%"Hello", .start c%"b" [], .text c%"world", .end c%"b", .end c%"p"] (by decide +kernel) (by decide +kernel)
  exact absurd this (by decide +kernel)

/-- C74 fails: white space is inserted between the inline elements of a paragraph without text of its own, and one word becomes two
(`<b>x</b><i>y</i>`). -/
theorem C74_words_split_fails : ¬ ∀ (U : Uni) (T : EntTables) (K : StreamTables) (d e : Str),
    SameWords U T K (.elem c%"p" (some c%"html") [] [.elem c%"b" (some c%"html") [] [.text d] false [],
      .elem c%"i" (some c%"html") [] [.text e] false []] false []) := by
  intro h
  have := h Uni.sample EntTables.sample StreamTables.sample c%"x" c%"y" c%"<p>\n  <b>x</b>\n  <i>y</i>\n</p>"
    [.start c%"p" [], .text c%"\n  ", .start c%"b" [], .text c%"x", .end c%"b", .text c%"\n  ", .start c%"i" [], .text c%"y", .end c%"i",
     .text c%"\n", .end c%"p"] (by decide +kernel) (by decide +kernel)
  exact absurd this (by decide +kernel)

/-- C74 fails: blanks at the edges of an inline element are removed (`a<b> x </b>b` is written `a<b>x</b>b`). -/
theorem C74_edges_fails : ¬ ∀ (U : Uni) (T : EntTables) (K : StreamTables) (d e f : Str),
    SameWords U T K (.elem c%"p" (some c%"html") [] [.text d, .elem c%"b" (some c%"html") [] [.text e] false [], .text f] false []) := by
  intro h
  have := h Uni.sample EntTables.sample StreamTables.sample c%"a" c%" x " c%"b" c%"<p>a<b>x</b>b</p>"
    [.start c%"p" [], .text c%"a", .start c%"b" [], .text c%"x", .end c%"b", .text c%"b", .end c%"p"] (by decide +kernel) (by decide +kernel)
  exact absurd this (by decide +kernel)

/-- C74, what holds: an element with nothing but text (not preformatted and not raw text) is written with its text on one line, in the
same words. -/
theorem C74_text_only_partial (U : Uni) (size indent : Nat) (name : Str) (ns : Option Str) (attrs : List (Str × Option Str)) (ds : List Str)
    (s : Str) (hv : name ∉ voidElements) (hn : name ∉ preformatted)
    (hraw : U.lower name ∉ [c%"iframe", c%"noembed", c%"noframes", c%"plaintext", c%"script", c%"style", c%"xmp"])
    (h : toHtmlPretty U size none indent (.elem name ns attrs (ds.map Node.text) false []) = some s) :
    ∃ tag d, serializeStartTag U { htmlNs := isHtmlNs ns } name attrs = some tag ∧
      s = List.replicate (min indent 64 * size) ' ' ++ tag ++ escapeText d ++ c%"</" ++ name ++ c%">" ∧
      wordsOf U.isSpace d = wordsOf U.isSpace ds.flatten := by
  rw [toHtmlPretty, pretty] at h
  split at h
  · cases h
  · rename_i tag htag
    rw [if_neg (by simpa using hv), if_neg (by simp), prettyElem] at h
    have hw : wsPreserving.contains name = false := by
      cases hc : wsPreserving.contains name with
      | false => rfl
      | true => exact absurd ((ws_preformatted name).1 hc) hn
    have hpc : PlainCtx U (textCtx name ns) := by
      refine plain_of_ne _ fun p hp => ?_
      rw [textCtx] at hp
      split at hp
      · simp only [Option.some.injEq] at hp; subst hp; exact hraw
      · cases hp
    have hall : (ds.map Node.text).all isTextN = true := by simp [List.all_eq_true, isTextN]
    rw [hw, kids_empty, kids_all_text, kids_text_data, hall] at h
    have hfl : (ds.map Node.text).flatMap textData = ds.flatten := by
      clear h hall
      induction ds with
      | nil => rfl
      | cons d ds ih => rw [List.map_cons, List.flatMap_cons, ih]; rfl
    rw [hfl] at h
    simp only [Bool.or_false, Bool.false_eq_true, if_false, Bool.not_false, Bool.and_self, if_true] at h
    split at h
    · rename_i he
      simp only [Option.some.injEq] at h
      refine ⟨tag, [], htag, by rw [← h]; simp [prettyIndent, escapeText_eq], ?_⟩
      have : ds = [] := by simpa using he
      subst this; rfl
    · simp only [Option.some.injEq] at h
      refine ⟨tag, collapsePretty U ds.flatten, htag, by rw [← h, hpc]; simp [prettyIndent], words_collapse _⟩

example : toHtmlPretty Uni.sample 4 none 1 (.elem c%"p" (some c%"html") [] [.text c%" a\n", .text c%"  b & c "] false []) =
    some c%"    <p>a b &amp; c</p>" := by decide +kernel

end JH
