import Verif.Props.ReportTrue
/-! What the sanitizer changes without a report (C99), and examples for the theorems of C99. -/
namespace JH
open Spec

/-- A policy for the examples. -/
private def pol : SanCfg :=
  { allowedTags := [c%"p", c%"a"], allowedAttrs := [(c%"a", [c%"href"]), (c%"p", [c%"style"])], cssProps := [c%"color"] }

/-- C99 fails for the declarations of a style: if one is allowed, the others are removed without a report, so raise mode does not raise. -/
theorem C99_style_declarations_fails : ∃ (C : SanCfg) (root : Node) (d : Str),
    root = .elem c%"p" none [(c%"style", some c%"color: red; position: fixed")] [] false [] ∧ d = c%"color: red" ∧ c%"position" ∉ C.cssProps ∧
    sanitizeDom SanEnv.sample C ⟨.raise, none, none⟩ root = .ok (.elem c%"p" none [(c%"style", some d)] [] false [], ⟨.raise, none, none⟩) :=
  ⟨pol, _, _, rfl, rfl, by decide, by with_unfolding_all rfl⟩

/-- C99 fails for an attribute whose name is blank (such as a vertical tab): it is removed without a report. -/
theorem C99_blank_name_fails : ∃ (C : SanCfg) (root : Node), root = .elem c%"p" none [([Char.ofNat 0x0B], some c%"v")] [] false [] ∧
    sanitizeDom SanEnv.sample C ⟨.raise, none, none⟩ root = .ok (.elem c%"p" none [] [] false [], ⟨.raise, none, none⟩) :=
  ⟨pol, _, rfl, by with_unfolding_all rfl⟩

/-- C99 fails for comments in `escape` mode: a comment becomes visible text without a report. -/
theorem C99_escaped_comment_fails : ∃ (C : SanCfg) (root : Node), root = .doc [.comment c%"x"] ∧ C.dropComments = true ∧
    sanitizeDom SanEnv.sample C ⟨.raise, none, none⟩ root = .ok (.doc [.text c%"<!--x-->"], ⟨.raise, none, none⟩) :=
  ⟨{ pol with handling := .escape }, _, rfl, rfl, by with_unfolding_all rfl⟩

/-- C99: a finding that names a tag or an attribute quotes its name in the message. -/
theorem C99_quoted (f : Finding) (t : Str) (h : Finding.NamesTag t f ∨ Finding.NamesAttr t f) : c%"'" ++ t ++ c%"'" <:+: f.msg := by
  rcases h with (rfl | rfl | rfl) | (rfl | rfl | rfl | ⟨rfl, rfl⟩)
  · exact ⟨c%"Unsafe tag ", c%" (foreign namespace)", by simp [Finding.msg]⟩
  · exact ⟨c%"Unsafe tag ", c%" (dropped content)", by simp [Finding.msg]⟩
  · exact ⟨c%"Unsafe tag ", c%" (not allowed)", by simp [Finding.msg]⟩
  · exact ⟨c%"Unsafe attribute ", c%" (not allowed)", by simp [Finding.msg]⟩
  · exact ⟨c%"Unsafe URL in attribute ", [], by simp [Finding.msg]⟩
  · exact ⟨c%"Unsafe URL in attribute ", c%" (no rule)", by simp [Finding.msg]⟩
  · exact ⟨c%"Unsafe inline style in attribute ", [], by simp [Finding.msg]⟩

/-! ### Examples -/

/-- A tree with something for most reports. -/
private def src : Node :=
  .doc [.doctype c%"html" none none,
    .elem c%"p" none [(c%"onclick", some c%"f()"), (c%"style", some c%"position: fixed")]
      [.elem c%"x" none [] [.text [Char.ofNat 0x200B], .elem c%"a" none [(c%"href", some c%"javascript:1")] [] false []] false [],
       .comment c%"c", .elem c%"svg" (some c%"svg") [] [] false []] false []]

/-- The reports about it, in order. -/
example : (sanitizeRootR SanEnv.sample pol src).2 =
    [.doctype, .attr c%"onclick", .style, .notAllowed c%"x", .invisibleText, .urlNoRule c%"href", .comment, .foreign c%"svg"] := by
  with_unfolding_all decide +kernel

example : sanitizeDom SanEnv.sample pol ⟨.raise, none, none⟩ src = .error c%"Dropped doctype" := by with_unfolding_all rfl

/-- The hypotheses of the theorems hold for it. -/
example : Everywhere Named src ∧ Everywhere (fun m => SanEnv.sample.unclosed m = false) src ∧ SanCfg.Keyed Uni.sample pol.allowedAttrs := by
  refine ⟨?_, ?_, ?_, by decide⟩
  · simp only [src, Everywhere, EverywhereL, Named, ProperName]; decide
  · simp only [src, Everywhere, EverywhereL]; decide +kernel
  · intro p hp
    simp only [pol, List.mem_cons, List.not_mem_nil, or_false] at hp
    rcases hp with rfl | rfl <;> decide +kernel

/-- A tree the policy accepts: nothing is reported, and it is kept. -/
example : (sanitizeRootR SanEnv.sample pol (.doc [.elem c%"p" none [(c%"style", some c%"color: red")] [.text c%"t"] false []])).2 = [] := by
  with_unfolding_all decide +kernel

/-- Raw text: the findings of the last pass. -/
example : (sanitizeRootR SanEnv.sample { pol with allowedTags := [c%"style"] }
    (.doc [.elem c%"style" none [] [.text c%"</style>", .comment c%"c"] false [],
      .elem c%"style" none [] [.elem c%"style" none [] [] false [], .text c%"a{background:url(x)}"] false []])).2 =
    [.comment, .rawEnd c%"style", .rawChild c%"style", .rawStyle] := by with_unfolding_all decide +kernel

end JH
