import Verif.Lemmas.EngRound
import Verif.Props.EngFails

/-! C81: writing a tree as HTML and parsing it again. -/
namespace JH.Eng.Props
open JH.Spec

set_option maxRecDepth 100000
seal result

/-- A raw parse of a fragment, or of a document. -/
theorem rawC_raw (E : UrlEnv) (T : EntTables) (fragment : Bool) (html : Str) (sc : Bool) : RawC (rawCfg E T fragment html c%"div" none sc) where
  raw := rfl
  act := rfl
  els := by
    show ∀ x ∈ (if sc then rawElems else rawElems.filter (· ≠ c%"noscript")), x ∈ ownRules
    cases sc <;> decide
  spans := rfl
  locs := rfl
  ctx := by cases fragment; exact Or.inl rfl; exact Or.inr rfl
  comments := rfl
  strip := rfl

mutual
theorem every_true : ∀ n : Node, Every (fun _ => True) (fun _ => True) (fun _ _ => True) n
  | .text _ => trivial
  | .comment _ => trivial
  | .pi _ => trivial
  | .doctype _ _ _ => trivial
  | .doc _ => trivial
  | .elem _ _ _ kids _ _ => ⟨trivial, everyL_true kids⟩
theorem everyL_true : ∀ ns : List Node, EveryL (fun _ => True) (fun _ => True) (fun _ _ => True) ns
  | [] => trivial
  | n :: ns => ⟨every_true n, everyL_true ns⟩
end

theorem good_html (U : Uni) {forest : List Node} (hg : GoodL [] forest) : toHtmlCompact U none (.doc forest) = .ok (outL forest) := by
  rw [C12_document_order, markup, markupL_out U none (by simp) forest [] hg]

theorem noBom {html : Str} (h : html.head? ≠ some '\uFEFF') : dropBom html = html := by
  unfold dropBom
  cases html with
  | nil => rfl
  | cons c l => exact if_neg fun e => h (by rw [e]; rfl)

/-- C81: a forest in which the elements are nested as the HTML standard asks is serialized without error, and `JustHTML(html, fragment=True, sanitize=False)`
gives back exactly this forest. -/
theorem C81_raw_fragment (E : UrlEnv) (T : EntTables) (sc : Bool) (forest : List Node) (hg : GoodL [] forest) :
    ∃ html, toHtmlCompact E.U none (.doc forest) = .ok html ∧
      (html.head? ≠ some '\uFEFF' → result (rawCfg E T true html c%"div" none sc) = .doc forest) := by
  refine ⟨outL forest, good_html E.U hg, fun hb => ?_⟩
  refine fragment_reads (rawC_raw E T true _ sc).reader rfl rfl ?_ hg (everyL_true forest) (noBom hb)
  cases sc <;> rfl

/-- C81: whatever the input was, if the tree that a raw parse made of it is of that kind, then writing it and parsing it again changes nothing. -/
theorem C81_raw_stable (E : UrlEnv) (T : EntTables) (sc : Bool) (input : Str) (forest : List Node) (hr : result (rawCfg E T true input c%"div" none sc) = .doc forest)
    (hg : GoodL [] forest) (html : Str) (hh : toHtmlCompact E.U none (result (rawCfg E T true input c%"div" none sc)) = .ok html) (hb : html.head? ≠ some '\uFEFF') :
    result (rawCfg E T true html c%"div" none sc) = result (rawCfg E T true input c%"div" none sc) := by
  obtain ⟨html', h1, h2⟩ := C81_raw_fragment E T sc forest hg
  rw [hr] at hh ⊢
  rw [hh] at h1
  cases h1
  exact h2 hb

/-- C81: different forests of that kind have different markup. -/
theorem C81_injective (U : Uni) (f g : List Node) (hf : GoodL [] f) (hg : GoodL [] g) (html : Str) (h1 : toHtmlCompact U none (.doc f) = .ok html)
    (h2 : toHtmlCompact U none (.doc g) = .ok html) (hb : html.head? ≠ some '\uFEFF') : f = g := by
  have e1 : outL f = html := by rw [good_html U hf] at h1; cases h1; rfl
  have e2 : outL g = html := by rw [good_html U hg] at h2; cases h2; rfl
  have a := fragment_reads (rawC_raw UrlEnv.sample EntTables.sample true html true).reader rfl rfl rfl hf (everyL_true f) ((noBom hb).trans e1.symm)
  have b := fragment_reads (rawC_raw UrlEnv.sample EntTables.sample true html true).reader rfl rfl rfl hg (everyL_true g) ((noBom hb).trans e2.symm)
  rw [a] at b
  cases b
  rfl

/-! ### Such a forest -/

instance (c : Char) : Decidable (nameChar c) := by unfold nameChar; infer_instance
instance (t : Str) : Decidable (PlainText t) := by unfold PlainText; infer_instance
instance (t : Str) : Decidable (PlainAttr t) := by unfold PlainAttr; infer_instance
instance (t : Str) : Decidable (PlainComment t) := by unfold PlainComment; infer_instance
/-- `PlainTag`, as a computation. -/
def plainTagB : Str → Bool
  | [] => false
  | c :: r => 'a' ≤ c && c ≤ 'z' && (c :: r).all fun c => decide (nameChar c)

theorem plainTagB_of {n : Str} (h : plainTagB n = true) : PlainTag n := by
  cases n with
  | nil => cases h
  | cons c r =>
    simp only [plainTagB, Bool.and_eq_true, decide_eq_true_eq, List.all_eq_true] at h
    exact ⟨⟨c, r, rfl, h.1.1, h.1.2⟩, h.2⟩

/-- `GoodAttrs`, as a computation. -/
def goodAttrsB (tag : Str) (attrs : List (Str × Option Str)) : Bool :=
  decide (attrs.map (·.1)).Nodup && attrs.all fun a => decide (PlainAttr a.1) &&
    match a.2 with
    | none => false
    | some v => decide (PlainText v) && (!isBooleanAttr tag a.1 || lowerA v ≠ a.1)

theorem goodAttrsB_of {tag : Str} {attrs : List (Str × Option Str)} (h : goodAttrsB tag attrs = true) : GoodAttrs tag attrs := by
  simp only [goodAttrsB, Bool.and_eq_true, decide_eq_true_eq, List.all_eq_true] at h
  refine ⟨h.1, fun a ha => ⟨(h.2 a ha).1, ?_⟩⟩
  have := (h.2 a ha).2
  cases hv : a.2 with
  | none => rw [hv] at this; cases this
  | some v =>
    rw [hv] at this
    simp only [Bool.and_eq_true, decide_eq_true_eq, Bool.or_eq_true, Bool.not_eq_true'] at this
    refine ⟨v, rfl, this.1, fun hb => this.2.resolve_left ?_⟩
    rw [hb]
    simp

/-- `MayNest`, as a computation. -/
def mayNestB (anc : List Str) (name : Str) : Bool :=
  (!blockNames.contains name || !anc.contains c%"p") &&
  (!headingNames.contains name || anc.head?.all fun p => !headingNames.contains p) &&
  (name ≠ c%"li" || anc.head?.any (fun p => [c%"ul", c%"ol", c%"menu", c%"dir"].contains p) || !anc.contains c%"li") &&
  ((name ≠ c%"dd" && name ≠ c%"dt") || anc.head?.any (fun p => p = c%"dl") || (!anc.contains c%"dd" && !anc.contains c%"dt")) &&
  (name ≠ c%"a" || !anc.contains c%"a") &&
  (!formattingNames.contains name || (anc.filter (· = name)).length < 3)

theorem mayNestB_of {anc : List Str} {name : Str} (h : mayNestB anc name = true) : MayNest anc name := by
  simp only [mayNestB, Bool.and_eq_true, Bool.or_eq_true, Bool.not_eq_true', decide_eq_true_eq, List.contains_eq_mem, decide_eq_false_iff_not,
    Option.all_eq_true, Option.any_eq_true, ne_eq] at h
  obtain ⟨⟨⟨⟨⟨h1, h2⟩, h3⟩, h4⟩, h5⟩, h6⟩ := h
  refine ⟨?_, ?_, ?_, ?_, ?_, ?_⟩
  · intro h; exact h1.resolve_left (fun g => g h)
  · intro h p hp; exact h2.resolve_left (fun g => g h) p hp
  · intro h
    rcases h3 with (g | ⟨x, g⟩) | g
    · exact absurd h g
    · exact Or.inl ⟨x, g⟩
    · exact Or.inr g
  · intro h
    rcases h4 with (g | ⟨x, g⟩) | g
    · exact absurd h (fun e => e.elim g.1 g.2)
    · exact Or.inl ⟨x, g⟩
    · exact Or.inr g
  · intro h; exact h5.resolve_left (fun g => g h)
  · intro h; exact h6.resolve_left (fun g => g h)

mutual
/-- `Good`, as a computation. -/
def goodB (anc : List Str) : Node → Bool
  | .text t => !t.isEmpty && decide (PlainText t)
  | .comment d => decide (PlainComment d)
  | .elem name ns attrs kids tpl content =>
    ns = some c%"html" && !tpl && content.isEmpty && plainTagB name && !ownRules.contains name && goodAttrsB name attrs && mayNestB anc name &&
    (!emptyNames.contains name || kids.isEmpty) && goodLB (name :: anc) kids
  | _ => false
/-- `GoodL`, as a computation. -/
def goodLB (anc : List Str) : List Node → Bool
  | [] => true
  | n :: ns => goodB anc n && (!isTextNode n || ns.head?.all fun m => !isTextNode m) && goodLB anc ns
end

mutual
theorem goodB_of : ∀ (n : Node) (anc : List Str), goodB anc n = true → Good anc n
  | .text t, anc, h => by
    simp only [goodB, Bool.and_eq_true, Bool.not_eq_true', List.isEmpty_eq_false_iff, decide_eq_true_eq] at h
    rw [Good]; exact h
  | .comment d, anc, h => by
    simp only [goodB, decide_eq_true_eq] at h
    rw [Good]; exact h
  | .pi _, anc, h => by simp [goodB] at h
  | .doctype _ _ _, anc, h => by simp [goodB] at h
  | .doc _, anc, h => by simp [goodB] at h
  | .elem name ns attrs kids tpl content, anc, h => by
    simp only [goodB, Bool.and_eq_true, Bool.not_eq_true', decide_eq_true_eq, List.contains_eq_mem, decide_eq_false_iff_not, Bool.or_eq_true, List.isEmpty_iff] at h
    obtain ⟨⟨⟨⟨⟨⟨⟨⟨h1, h2⟩, h3⟩, h4⟩, h5⟩, h6⟩, h7⟩, h8⟩, h9⟩ := h
    rw [Good]
    exact ⟨h1, h2, h3, plainTagB_of h4, h5, goodAttrsB_of h6, mayNestB_of h7, fun g => h8.resolve_left (fun k => k g), goodLB_of kids (name :: anc) h9⟩
theorem goodLB_of : ∀ (ns : List Node) (anc : List Str), goodLB anc ns = true → GoodL anc ns
  | [], anc, h => by rw [GoodL]; trivial
  | n :: ns, anc, h => by
    simp only [goodLB, Bool.and_eq_true, Bool.or_eq_true, Bool.not_eq_true', Option.all_eq_true] at h
    rw [GoodL]
    refine ⟨goodB_of n anc h.1.1, fun ht => ?_, goodLB_of ns anc h.2⟩
    exact h.1.2.resolve_left (by rw [ht]; simp)
end

/-- An element without namespace trouble. -/
def el (name : Str) (attrs : List (Str × Option Str)) (kids : List Node) : Node := .elem name (some c%"html") attrs kids false []

/-- A paragraph, a list with a link in it, and a comment. -/
def roundSample : List Node :=
  [el c%"p" [] [.text c%"1 < 2 & ", el c%"b" [] [el c%"i" [] [.text c%"3"]], el c%"br" [] []],
   el c%"ul" [(c%"class", some c%"x y")] [el c%"li" [] [el c%"a" [(c%"href", some c%"/?a=1&b=\"2\"")] [.text c%"link"]], el c%"li" [] []],
   .comment c%" - ", .text c%"\nend"]

theorem roundSample_good : GoodL [] roundSample := goodLB_of _ _ (by decide +kernel)

example : ∃ html, toHtmlCompact UrlEnv.sample.U none (.doc roundSample) = .ok html ∧
    (html.head? ≠ some '\uFEFF' → result (rawCfg UrlEnv.sample EntTables.sample true html c%"div" none true) = .doc roundSample) :=
  C81_raw_fragment _ _ _ _ roundSample_good

/-! ### Trees that do not come back -/

/-- C81 does not hold for `pre`: the line feed at the beginning is written as it is, and dropped by the parser. -/
theorem C81_pre_fails : ∃ forest, toHtmlCompact UrlEnv.sample.U none (.doc forest) = .ok c%"<pre>\nx</pre>" ∧
    result (rawCfg UrlEnv.sample EntTables.sample true c%"<pre>\nx</pre>") ≠ .doc forest := by
  refine ⟨[el c%"pre" [] [.text c%"\nx"]], by decide +kernel, fun h => ?_⟩
  have : rawHtml true c%"<pre>\nx</pre>" = .ok c%"<pre>x</pre>" := by decide +kernel
  unfold rawHtml at this
  rw [h] at this
  exact absurd this (by decide +kernel)

/-- C81 does not hold for a comment that starts with `!>`: it is written as it is, and the parser takes `<!--!>` for a whole comment. What was in the comment
becomes markup. -/
theorem C81_comment_fails : ∃ forest, toHtmlCompact UrlEnv.sample.U none (.doc forest) = .ok c%"<!--!><img src=x>-->" ∧
    rawHtml true c%"<!--!><img src=x>-->" = .ok c%"<!----><img src=\"x\">--&gt;" :=
  ⟨[.comment c%"!><img src=x>"], by decide +kernel, by decide +kernel⟩

/-- C81 does not hold for a boolean attribute whose value is its name: the value is left out, and read as empty. -/
theorem C81_boolean_fails : ∃ forest, toHtmlCompact UrlEnv.sample.U none (.doc forest) = .ok c%"<p inert></p>" ∧
    result (rawCfg UrlEnv.sample EntTables.sample true c%"<p inert></p>") ≠ .doc forest := by
  refine ⟨[el c%"p" [(c%"inert", some c%"inert")] []], by decide +kernel, fun h => ?_⟩
  have : (match result (rawCfg UrlEnv.sample EntTables.sample true c%"<p inert></p>") with
    | .doc [.elem _ _ [(_, some v)] _ _ _] => v.isEmpty
    | _ => false) = true := by with_unfolding_all decide +kernel
  rw [h] at this
  exact absurd this (by decide)

end JH.Eng.Props
