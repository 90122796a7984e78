import Verif.Props.ReportGaps
import Verif.Props.SanText
import Verif.Props.SanKeep
import Verif.Props.TransNodes
/-! A `script` or `style` in foreign content whose end tag was not recorded makes the sanitizer drop everything after it. The end tag is
recorded only when the parser tracks tag spans, so for most policies a *closed* one counts as unclosed (F74): limits of C29, C59, C89, C99. -/
namespace JH
open Spec

/-- The environment for trees without recorded end tags: parsed without tag spans, or made by hand. -/
def SanEnv.untracked : SanEnv := { SanEnv.sample with unclosed := openForeign fun _ => false }

/-- `<svg><style></style></svg><p>hello</p>`. -/
def svgThenP : List Node :=
  [.elem c%"svg" (some c%"svg") [] [.elem c%"style" (some c%"svg") [] [] false []] false [], .elem c%"p" none [] [.text c%"hello"] false []]

/-- Paragraphs are allowed, everything else is unwrapped. -/
def allowP : SanCfg := { allowedTags := [c%"p"] }

/-- **C29, the limit.** The text after the SVG element is lost. -/
theorem C29_trailing_fails : ∃ (C : SanCfg) (root : Node), root = .doc svgThenP ∧ C.handling = .unwrap ∧
    keptText (textGone Uni.sample C) root = c%"hello" ∧ allText (sanitizeRoot SanEnv.untracked C root) = [] :=
  ⟨allowP, _, rfl, rfl, by with_unfolding_all rfl, by with_unfolding_all rfl⟩

/-- **C59, the limit.** An allowed paragraph at the top of the document is removed. -/
theorem C59_trailing_fails : ∃ (C : SanCfg) (p : Node), p ∈ svgThenP ∧ p = .elem c%"p" none [] [.text c%"hello"] false [] ∧ c%"p" ∈ C.allowedTags ∧
    sanitizeRoot SanEnv.untracked C (.doc svgThenP) = .doc [] ∧
    sanitizeRoot SanEnv.untracked C (.doc [p]) = .doc [p] :=
  ⟨allowP, _, by simp [svgThenP], rfl, by decide, by with_unfolding_all rfl, by with_unfolding_all rfl⟩

/-- **C99, the limit.** An allowed paragraph with its text is removed, and the only finding names the SVG element. -/
theorem C99_trailing_fails : ∃ (C : SanCfg) (f : Finding), f = Finding.foreign c%"svg" ∧
    sanitizeRootR SanEnv.untracked C (.doc svgThenP) = (.doc [], [f]) :=
  ⟨allowP, _, rfl, by with_unfolding_all rfl⟩

/-- **C89, the limit.** `DropForeignNamespaces` removes an HTML element. -/
theorem C89_trailing_fails : ∃ (R : TransEnv) (fuel : List Node → Nat), EnoughFuel fuel ∧ R.S.unclosed = openForeign (fun _ => false) ∧
    transform R fuel [.one true .dropForeign] svgThenP = [] ∧
    without (fun name ns _ => foreignElem R.S.E.U name ns) svgThenP = [.elem c%"p" none [] [.text c%"hello"] false []] :=
  ⟨{ TransEnv.sample with S := SanEnv.untracked }, fuelFor, fuelFor_enough, rfl, by with_unfolding_all rfl, by with_unfolding_all rfl⟩

mutual
theorem unclosed_false (ended : Node → Bool) : ∀ n, Everywhere (EndKnown ended) n → Everywhere (fun m => openForeign ended m = false) n
  | .elem name ns as kids tpl content, h =>
    ⟨openForeign_of_ended ended _ h, unclosedL_false ended kids h.2.1, fun t => unclosedL_false ended content (h.2.2 t)⟩
  | .doc kids, h => ⟨openForeign_of_ended ended _ h, unclosedL_false ended kids h.2⟩
  | .text _, _ => rfl
  | .comment _, _ => rfl
  | .pi _, _ => rfl
  | .doctype _ _ _, _ => rfl
theorem unclosedL_false (ended : Node → Bool) : ∀ l, EverywhereL (EndKnown ended) l → EverywhereL (fun m => openForeign ended m = false) l
  | [], _ => trivial
  | n :: r, h => ⟨unclosed_false ended n h.1, unclosedL_false ended r h.2⟩
end

/-- **C59** for trees without `script` and `style` in foreign namespaces (or with recorded end tags): the hypothesis of
`C59_allowed_kept_partial` about `unclosed` holds. The same works for C29 and C99. -/
theorem C59_no_foreign_raw_partial (S : SanEnv) (ended : Node → Bool) (hu : S.unclosed = openForeign ended) (C : SanCfg) (hN : C.Normal S.E.U)
    (hK : SanCfg.Keyed S.E.U C.allowedAttrs) (root : Node) (hE : Everywhere (EndKnown ended) root)
    (name : Str) (ns : Option Str) (as : Attrs) (kids : List Node) (tpl : Bool) (content : List Node)
    (hv : Visible S.E.U C (.elem name ns as kids tpl content) [root]) (hp : ProperName name)
    (hf : ¬ Foreign S.E.U.lower (.elem name ns as kids tpl content)) (ha : S.E.U.lower name ∈ C.allowedTags)
    (hn : (as.map Prod.fst).Nodup) (hl : ∀ q ∈ as, S.E.U.lower q.1 = q.1) :
    ∃ as' kids' content', Reach (.elem name ns as' kids' tpl content') [sanitizeRoot S C root] :=
  have ⟨a, k, c, h, _⟩ := C59_allowed_kept_partial S C hN hK root (by rw [hu]; exact unclosed_false ended root hE) name ns as kids tpl content hv hp hf ha hn hl
  ⟨a, k, c, h⟩

/-- A tree with an SVG drawing meets `EndKnown` even if no end tags were recorded. -/
example : EverywhereL (EndKnown fun _ => false)
    [.elem c%"svg" (some c%"svg") [] [.elem c%"path" (some c%"svg") [] [] false []] false [], .elem c%"style" none [] [] false []] := by
  refine ⟨⟨?_, ⟨⟨?_, trivial, fun _ => trivial⟩, trivial⟩, fun _ => trivial⟩, ⟨?_, trivial, fun _ => trivial⟩, trivial⟩ <;>
    intro name ns as kids tpl content e h <;> cases e
  · exact absurd h (by decide)
  · exact absurd h (by decide)
  · exact .inl rfl

end JH
