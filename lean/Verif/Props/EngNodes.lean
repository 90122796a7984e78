import Verif.Lemmas.EngHeads
import Verif.Props.EngFails

/-! Which kinds of nodes a parse makes. -/
namespace JH.Eng

set_option maxRecDepth 100000
seal result

theorem defaultPolicy_ok : ∀ x ∈ [c%"input", c%"option", c%"selectedcontent"], x ∉ defaultPolicy.allowedTags := by decide +kernel
theorem defaultDocumentPolicy_ok : ∀ x ∈ [c%"input", c%"option", c%"selectedcontent"], x ∉ defaultDocumentPolicy.allowedTags := by decide +kernel

instance safeCfg_ok (E : UrlEnv) (T : EntTables) (fragment : Bool) (html ctx : Str) (ns : Option Str) (sc : Bool) :
    Ok (safeCfg E T fragment html ctx ns sc) := ⟨.inr ⟨if fragment then defaultPolicy else defaultDocumentPolicy, sc, rfl, by
  cases fragment
  · exact defaultDocumentPolicy_ok
  · exact defaultPolicy_ok⟩⟩

instance rawCfg_ok (E : UrlEnv) (T : EntTables) (fragment : Bool) (html ctx : Str) (ns : Option Str) (sc : Bool) :
    Ok (rawCfg E T fragment html ctx ns sc) := ⟨.inl ⟨sc, rfl⟩⟩

theorem safe_dropComments (E : UrlEnv) (T : EntTables) (fragment : Bool) (html ctx : Str) (ns : Option Str) (sc : Bool) :
    (safeCfg E T fragment html ctx ns sc).plan.dropComments = true := by cases fragment <;> rfl

theorem safe_dropDoctype (E : UrlEnv) (T : EntTables) (html ctx : Str) (ns : Option Str) (sc : Bool) :
    (safeCfg E T true html ctx ns sc).plan.dropDoctype = true := rfl

/-- C77: whatever the input, the tree of `JustHTML(html)` with the default policy contains neither a comment nor a processing instruction: no sort of
markup declaration, no place in the document and no later rearrangement brings one in. -/
theorem C77_no_comments (E : UrlEnv) (T : EntTables) (fragment : Bool) (html ctx : Str) (ctxNs : Option Str) (scripting : Bool) :
    Spec.Everywhere Spec.NoComment (result (safeCfg E T fragment html ctx ctxNs scripting)) := by
  unfold result
  refine treeF_all trivial (fun i kids tpl content => ?_) _ _
  have h := run_kind (C := safeCfg E T fragment html ctx ctxNs scripting) i
  unfold HeadOk ENode.head at h
  rw [safe_dropComments] at h
  unfold shown
  cases hk : ((run (safeCfg E T fragment html ctx ctxNs scripting)).n i).kind <;> simp [hk] at h <;> trivial

/-- C77, second part: no doctype in the tree of a fragment. -/
theorem C77_no_doctype (E : UrlEnv) (T : EntTables) (html ctx : Str) (ctxNs : Option Str) (scripting : Bool) :
    Spec.Everywhere Spec.NoDoctype (result (safeCfg E T true html ctx ctxNs scripting)) := by
  unfold result
  refine treeF_all trivial (fun i kids tpl content => ?_) _ _
  have h := run_kind (C := safeCfg E T true html ctx ctxNs scripting) i
  unfold HeadOk ENode.head at h
  rw [safe_dropDoctype] at h
  unfold shown
  cases hk : ((run (safeCfg E T true html ctx ctxNs scripting)).n i).kind <;> simp [hk] at h <;> trivial

/-- An input with comments of every sort; without sanitizing they are all in the tree. -/
example : safeHtml false c%"<!--a--><!doctype html><?b c?><table><!--d--><b></!e></table></body><!f><!--g" =
      .ok c%"<!DOCTYPE html><html><head></head><body><b></b><table></table></body></html>" ∧
    rawHtml false c%"<!--a--><!doctype html><?b c?><table><!--d--><b></!e></table></body><!f><!--g" =
      .ok c%"<!--a--><!DOCTYPE html><?b c?><html><head></head><body><b><!--!e--></b><table><!--d--></table></body><!--f--><!--g--></html>" := by
  decide +kernel

end JH.Eng
