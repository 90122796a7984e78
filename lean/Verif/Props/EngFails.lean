import Verif.Model.EngMain
import Verif.Spec.Engine
import Verif.Props.Url
import Verif.Props.Serialize

/-! Wrong answers of the parser with the default policy. -/
namespace JH.Eng

set_option maxRecDepth 100000
seal result

/-- The serialized result of `JustHTML(html)`. -/
def safeHtml (fragment : Bool) (html : Str) : Scan Str := toHtmlCompact UrlEnv.sample.U none (result (safeCfg UrlEnv.sample EntTables.sample fragment html))

/-- The same with `sanitize=False`. -/
def rawHtml (fragment : Bool) (html : Str) : Scan Str := toHtmlCompact UrlEnv.sample.U none (result (rawCfg UrlEnv.sample EntTables.sample fragment html))

/-! ### C75, C76: what escapes the default policy -/

mutual
/-- `Spec.Everywhere`, as a computation. -/
def everyB (p : Node → Bool) : Node → Bool
  | .elem name ns as kids tpl content => p (.elem name ns as kids tpl content) && everyBL p kids && (!tpl || everyBL p content)
  | .doc kids => p (.doc kids) && everyBL p kids
  | .text d => p (.text d)
  | .comment d => p (.comment d)
  | .pi d => p (.pi d)
  | .doctype a b c => p (.doctype a b c)
/-- The same for a list. -/
def everyBL (p : Node → Bool) : List Node → Bool
  | [] => true
  | n :: ns => everyB p n && everyBL p ns
end

mutual
theorem everyB_of {p : Node → Bool} {P : Node → Prop} (h : ∀ n, P n → p n = true) : ∀ n, Spec.Everywhere P n → everyB p n = true
  | .elem name ns as kids tpl content, hn => by
    simp only [Spec.Everywhere] at hn
    simp only [everyB, Bool.and_eq_true, Bool.or_eq_true, Bool.not_eq_true']
    refine ⟨⟨h _ hn.1, everyBL_of h kids hn.2.1⟩, ?_⟩
    cases tpl with
    | false => exact .inl rfl
    | true => exact .inr (everyBL_of h content (hn.2.2 rfl))
  | .doc kids, hn => by
    simp only [Spec.Everywhere] at hn
    simp only [everyB, Bool.and_eq_true]
    exact ⟨h _ hn.1, everyBL_of h kids hn.2⟩
  | .text d, hn => h _ hn
  | .comment d, hn => h _ hn
  | .pi d, hn => h _ hn
  | .doctype a b c, hn => h _ hn
theorem everyBL_of {p : Node → Bool} {P : Node → Prop} (h : ∀ n, P n → p n = true) : ∀ l, Spec.EverywhereL P l → everyBL p l = true
  | [], _ => rfl
  | n :: l, hn => by
    simp only [Spec.EverywhereL] at hn
    simp only [everyBL, Bool.and_eq_true]
    exact ⟨everyB_of h n hn.1, everyBL_of h l hn.2⟩
end

theorem not_everywhere {p : Node → Bool} {P : Node → Prop} (h : ∀ n, P n → p n = true) {n : Node} (k : everyB p n = false) : ¬ Spec.Everywhere P n :=
  fun e => Bool.false_ne_true (k.symm.trans (everyB_of h n e))

/-- `Spec.TagIn`, as a computation. -/
def tagInB (tags : List Str) : Node → Bool
  | .elem name ns _ _ _ _ => decide (ns = some c%"html") && tags.contains name
  | _ => true

theorem tagInB_of {tags : List Str} : ∀ n, Spec.TagIn tags n → tagInB tags n = true
  | .elem name ns _ _ _ _, h => by simpa [tagInB, Spec.TagIn] using h
  | .doc _, _ => rfl
  | .text _, _ => rfl
  | .comment _, _ => rfl
  | .pi _, _ => rfl
  | .doctype _ _ _, _ => rfl

/-- `Spec.AttrsIn`, as a computation. -/
def attrsInB (allowed : List (Str × List Str)) : Node → Bool
  | .elem name _ as _ _ _ => as.all fun a => allowed.any fun p => (decide (p.1 = c%"*") || decide (p.1 = name)) && p.2.contains a.1
  | _ => true

theorem attrsInB_of {allowed : List (Str × List Str)} : ∀ n, Spec.AttrsIn allowed n → attrsInB allowed n = true
  | .elem name ns _ _ _ _, h => by
    simp only [attrsInB, List.all_eq_true, List.any_eq_true]
    intro a ha
    obtain ⟨p, hp, h1, h2⟩ := h a ha
    exact ⟨p, hp, by simpa using ⟨h1, h2⟩⟩
  | .doc _, _ => rfl
  | .text _, _ => rfl
  | .comment _, _ => rfl
  | .pi _, _ => rfl
  | .doctype _ _ _, _ => rfl

/-- The input of `C75_select_fails`. -/
def nestedSelect : Str :=
  c%"<select><selectedcontent></selectedcontent><option><table><tr><td><object><svg><desc><select><selectedcontent></selectedcontent><option><svg onload=E><desc>"

theorem nestedSelect_bad :
    everyB (tagInB defaultDocumentPolicy.allowedTags) (result (safeCfg UrlEnv.sample EntTables.sample false nestedSelect)) = false := by
  decide +kernel

/-- C75 fails (F49): with the default policy there is an input whose result contains an element that the policy does not allow. The copies that
`_project_selectedcontent` makes are not recorded when the copied elements were themselves copied before. -/
theorem C75_select_fails : ¬ ∀ (E : UrlEnv) (T : EntTables) (html : Str),
    Spec.Everywhere (Spec.TagIn defaultDocumentPolicy.allowedTags) (result (safeCfg E T false html)) := by
  exact fun h => not_everywhere tagInB_of nestedSelect_bad (h UrlEnv.sample EntTables.sample nestedSelect)

/-- The same input serialized: an `svg` element with an event handler. -/
example : safeHtml false nestedSelect = .ok
    c%"<html><head></head><body><table><tbody><tr><td><svg onload=\"E\"><desc></desc></svg></td></tr></tbody></table><table><tbody><tr><td></td></tr></tbody></table></body></html>" := by
  decide +kernel

/-- The input of `C76_adopted_fails`. -/
def foreignLink : Str :=
  c%"<a><svg><desc><object><a><a></object></desc>x<desc><a onclick=E href=javascript:E><p><b></p>y<div>click</a>z"

theorem foreignLink_bad :
    everyB (attrsInB defaultPolicy.allowedAttributes) (result (safeCfg UrlEnv.sample EntTables.sample false foreignLink)) = false := by
  decide +kernel

theorem foreignLink_bad' :
    everyB (attrsInB defaultPolicy.allowedAttributes) (result (safeCfg UrlEnv.sample EntTables.sample true foreignLink)) = false := by
  decide +kernel

/-- C76 fails (F44): with the default policy there is an input whose result contains an attribute that the policy does not allow. The adoption
agency copies the attributes of an `a` that was seen inside SVG, which are not sanitized, to a new HTML element. -/
theorem C76_adopted_fails : ∀ fragment : Bool, ¬ ∀ (E : UrlEnv) (T : EntTables) (html : Str),
    Spec.Everywhere (Spec.AttrsIn defaultPolicy.allowedAttributes) (result (safeCfg E T fragment html)) := by
  intro fragment h
  cases fragment with
  | false => exact not_everywhere attrsInB_of foreignLink_bad (h UrlEnv.sample EntTables.sample foreignLink)
  | true => exact not_everywhere attrsInB_of foreignLink_bad' (h UrlEnv.sample EntTables.sample foreignLink)

/-- The same input serialized: a link with an event handler and a `javascript:` address. -/
example : safeHtml true foreignLink = .ok
    c%"<a></a><p><b></b></p><a><b>y</b></a><b><div><a onclick=\"E\" href=\"javascript:E\">click</a>z</div></b>" := by decide +kernel

end JH.Eng
