import Verif.Props.EngRoundSafe

/-! C83: the default policy leaves nothing invisible. -/
namespace JH.Eng.Props
open JH.Spec

set_option maxRecDepth 100000
seal result

/-- C83, texts, for inputs without the tag `noframes`: whatever the input, no text in the tree of `JustHTML(html)` or `JustHTML(html, fragment=True)`, in any
context, contains an invisible character: not from character references, raw text, text areas or titles, and not through any rearrangement. -/
theorem C83_text_partial (E : UrlEnv) (T : EntTables) (fragment : Bool) (html ctx : Str) (ctxNs : Option Str) (scripting : Bool)
    (h : NoTag E.U c%"noframes" html) : Everywhere TextVisible (result (safeCfg E T fragment html ctx ctxNs scripting)) :=
  safe_texts E T fragment html ctx ctxNs scripting h

theorem plan_ctx (E : UrlEnv) (T : EntTables) (fragment : Bool) (html ctx : Str) (ctxNs : Option Str) (sc : Bool) :
    (safeCfg E T fragment html ctx ctxNs sc).plan = (safeCfg E T fragment html c%"div" none sc).plan := rfl

/-- The values of checked attributes. -/
theorem attrs_visible (E : UrlEnv) (T : EntTables) (fragment : Bool) (html ctx : Str) (ctxNs : Option Str) (sc : Bool) {name : Str} {as : Attrs}
    (hn : name ∈ (if fragment then defaultPolicy else defaultDocumentPolicy).allowedTags)
    (ha : AttrsOk (safeCfg E T fragment html ctx ctxNs sc) name as) : ∀ a ∈ as, ∀ v, a.2 = some v → ShowsAll v := by
  obtain ⟨a, h1, h2, h3, h4, h5, h6⟩ := plan_action E T fragment html sc hn
  have g1 : (safeCfg E T fragment html c%"div" none sc).plan.stripInvisible = true := by cases fragment <;> rfl
  have g2 : (safeCfg E T fragment html c%"div" none sc).plan.urlPolicy = defaultUrls := by cases fragment <;> rfl
  have g3 : (safeCfg E T fragment html c%"div" none sc).E = E := rfl
  have g4 : (safeCfg E T fragment html c%"div" none sc).plan.rawMode = false := by cases fragment <;> rfl
  have g5 : name ∈ (safeCfg E T fragment html c%"div" none sc).plan.allowedTags := by cases fragment <;> exact hn
  have g6 := plan_ctx E T fragment html ctx ctxNs sc
  have g7 : (safeCfg E T fragment html ctx ctxNs sc).E = E := rfl
  generalize safeCfg E T fragment html c%"div" none sc = D at *
  generalize safeCfg E T fragment html ctx ctxNs sc = C at *
  intro p hp v hv
  rcases ha with ⟨ha, -⟩ | ⟨-, ha | ⟨b, hb, hall⟩⟩
  · rw [g6, g4] at ha; cases ha
  · rw [g6] at ha; exact absurd g5 ha
  · rw [g6] at hb
    have : a = b := Option.some.inj (h1.symm.trans hb)
    subst this
    obtain ⟨k1, raw, w, k2, k3⟩ := hall p hp
    rw [h4] at k1
    have : v = w := Option.some.inj (hv.symm.trans k3)
    subst this
    rw [attrOut_congr g6 (g7.trans g3.symm)] at k2
    refine (attrOut_idem g1 g2 k1 ?_ k2).2
    rw [g3]
    exact h6 _ k1

/-- C83, attributes of documents without `<svg`, `<math` and `<selectedcontent`: no value of an attribute in the tree of `JustHTML(html)` contains an invisible
character. Missing from the full claim: inputs with those tags, for which it fails (`C83_adopted_fails`). -/
theorem C83_document_attrs_partial (E : UrlEnv) (T : EntTables) (html : Str) (scripting : Bool) (h : NoTag E.U c%"selectedcontent" html)
    (hsvg : NoTag E.U c%"svg" html) (hmath : NoTag E.U c%"math" html) : Everywhere AttrsVisible (result (safeCfg E T false html (scripting := scripting))) := by
  refine everywhere_imp (fun n hn => ?_) _ (everywhere_and _ (C75_document_partial E T html scripting h) (document_attrs E T html scripting hsvg hmath))
  cases n with
  | elem name ns as kids tpl content => exact attrs_visible E T false html _ _ scripting hn.1.2 hn.2.2.2
  | _ => trivial

/-- C83, attributes of fragments without those tags, in any HTML context. -/
theorem C83_fragment_attrs_partial (E : UrlEnv) (T : EntTables) (html ctx : Str) (ctxNs : Option Str) (scripting : Bool)
    (h : NoTag E.U c%"selectedcontent" html) (hsvg : NoTag E.U c%"svg" html) (hmath : NoTag E.U c%"math" html)
    (hns : ctxNs = none ∨ ctxNs = some c%"html") :
    Everywhere AttrsVisible (result (safeCfg E T true html ctx ctxNs scripting)) := by
  refine everywhere_imp (fun n hn => ?_) _
    (everywhere_and _ (C75_fragment_partial E T html ctx ctxNs scripting h hns) (fragment_attrs E T html ctx ctxNs scripting hsvg hmath hns))
  cases n with
  | elem name ns as kids tpl content => exact attrs_visible E T true html _ _ scripting hn.1.2 hn.2.2.2
  | _ => trivial

/-- `AttrsVisible`, as a computation. -/
def attrsVisibleB : Node → Bool
  | .elem _ _ as _ _ _ => as.all fun a => match a.2 with | none => true | some v => decide (ShowsAll v)
  | _ => true

theorem attrsVisibleB_of : ∀ n, AttrsVisible n → attrsVisibleB n = true
  | .elem name ns as _ _ _, h => by
    simp only [attrsVisibleB, List.all_eq_true]
    intro a ha
    cases hv : a.2 with
    | none => rfl
    | some v => exact decide_eq_true (h a ha v hv)
  | .doc _, _ => rfl
  | .text _, _ => rfl
  | .comment _, _ => rfl
  | .pi _, _ => rfl
  | .doctype _ _ _, _ => rfl

/-- A link in SVG whose title has a zero-width space. -/
def hiddenLink : Str := c%"<a><svg><desc><object><a><a></object></desc>x<desc><a title=a\u200bb><p><b></p>y<div>click</a>z"

theorem hiddenLink_bad : ∀ fragment, everyB attrsVisibleB (result (safeCfg UrlEnv.sample EntTables.sample fragment hiddenLink)) = false := by
  intro fragment
  cases fragment <;> decide +kernel

/-- C83 fails for attributes (F44): the adoption agency copies the attributes of an `a` that was seen inside SVG, which are not sanitized. -/
theorem C83_adopted_fails : ∀ fragment : Bool, ¬ ∀ (E : UrlEnv) (T : EntTables) (html : Str), Everywhere AttrsVisible (result (safeCfg E T fragment html)) :=
  fun fragment h => not_everywhere attrsVisibleB_of (hiddenLink_bad fragment) (h UrlEnv.sample EntTables.sample hiddenLink)

/-- The hypotheses are met by an input with invisible characters everywhere. -/
example : (∀ x ∈ [c%"selectedcontent", c%"svg", c%"math", c%"noframes"], NoTag UrlEnv.sample.U x c%"<p title='a\u200bb'>c&#x200b;\u200bd<a href='/\ufeffx'>e</a><textarea>\u2060f</textarea>") ∧
    safeHtml true c%"<p title='a\u200bb'>c&#x200b;\u200bd<a href='/\ufeffx'>e</a><textarea>\u2060f</textarea>" = .ok c%"<p title=\"ab\">cd<a href=\"/x\">e</a>f</p>" := by
  refine ⟨fun x hx => noTag_of (fun _ => rfl) ?_, by decide +kernel⟩
  simp only [List.mem_cons, List.not_mem_nil, or_false] at hx
  rcases hx with rfl | rfl | rfl | rfl <;> decide +kernel

end JH.Eng.Props
