import Verif.Lemmas.EngNames
import Verif.Lemmas.EngKept
import Verif.Props.EngNodes

/-! C75: what the default policy leaves in the tree. -/
namespace JH.Eng

set_option maxRecDepth 100000
seal result

/-! ### Tags that do not occur -/

theorem nulFix_eq {x name : Str} (h : nulFix x = name) (hn : '\ufffd' ∉ name) : x = name := by
  have key : ∀ c ∈ x, (if c = '\x00' then '\ufffd' else c) = c := by
    intro c hc
    by_cases h0 : c = '\x00'
    · exfalso
      apply hn
      rw [← h]
      exact List.mem_map.2 ⟨c, hc, by rw [if_pos h0]⟩
    · rw [if_neg h0]
  rw [← h]
  unfold nulFix
  conv => lhs; rw [← List.map_id x]
  exact List.map_congr_left fun c hc => (key c hc).symm

theorem splitName_append (s : Str) : (splitName s).1 ++ (splitName s).2 = s := by
  cases s with
  | nil => rfl
  | cons c r => unfold splitName; simp [List.takeWhile_append_dropWhile]

theorem compiledName_eq {C : Cfg} {raw name : Str} (h : compiledName C raw = name) (hl : lowerA name = name) : lowerA raw = name ∨ C.E.U.lower raw = name := by
  unfold compiledName at h
  split at h
  · left; rw [h]; exact hl
  · unfold foldName at h
    split at h
    · exact .inl h
    · exact .inr h

/-- A tag that does not occur gives no element its name. -/
theorem not_occurs {C : Cfg} {name : Str} (h : Spec.NoTag C.E.U name C.html) (hl : lowerA name = name) (hn : '\ufffd' ∉ name) : ¬ Occurs C name := by
  rintro ⟨s, ⟨⟨pre, hp⟩, _⟩, hs⟩
  have hh := h pre (splitName s).1 (splitName s).2 (by rw [splitName_append, hp])
  have : compiledName C (splitName s).1 = name := by
    rcases hs with hs | hs
    · exact hs.symm
    · exact nulFix_eq hs.symm hn
  rcases compiledName_eq this hl with k | k
  · exact hh.1 k
  · exact hh.2 k

theorem not_named {C : Cfg} {name : Str} (h : Spec.NoTag C.E.U name C.html) (hl : lowerA name = name) (hn : '\ufffd' ∉ name)
    (ho : name ∉ [c%"p", c%"br", c%"tbody", c%"tr", c%"colgroup", c%"img"]) : ¬ Named C name := by
  rintro ⟨k | k | ⟨k, _⟩⟩
  · simp at k ho; grind
  · exact not_occurs h hl hn k
  · exact ho (by simp [k])

theorem noTag_dropBom {U : Uni} {name html : Str} (h : Spec.NoTag U name html) : Spec.NoTag U name (dropBom html) := by
  unfold dropBom
  split
  · next c l =>
    split
    · intro pre w post e
      exact h (c :: pre) w post (by rw [e]; rfl)
    · exact h
  · exact h

/-! ### Documents -/

mutual
theorem everywhere_imp {P Q : Node → Prop} (h : ∀ n, P n → Q n) : ∀ n, Spec.Everywhere P n → Spec.Everywhere Q n
  | .elem name ns as kids tpl content, hn => by
    simp only [Spec.Everywhere] at hn ⊢
    exact ⟨h _ hn.1, everywhereL_imp h kids hn.2.1, fun t => everywhereL_imp h content (hn.2.2 t)⟩
  | .doc kids, hn => by
    simp only [Spec.Everywhere] at hn ⊢
    exact ⟨h _ hn.1, everywhereL_imp h kids hn.2⟩
  | .text d, hn => h _ hn
  | .comment d, hn => h _ hn
  | .pi d, hn => h _ hn
  | .doctype a b c, hn => h _ hn
theorem everywhereL_imp {P Q : Node → Prop} (h : ∀ n, P n → Q n) : ∀ l, Spec.EverywhereL P l → Spec.EverywhereL Q l
  | [], _ => trivial
  | n :: l, hn => by
    simp only [Spec.EverywhereL] at hn ⊢
    exact ⟨everywhere_imp h n hn.1, everywhereL_imp h l hn.2⟩
end

section
variable {C : Cfg}

/-- A parse that is not all text. -/
theorem run_eq (h : (C.fragment && textContext C) = false) : run C = (finish C (parseRange C (setup C (buildRoot C (init C)).2).2).2).2 := by
  unfold run parse
  rw [bind_eq]
  unfold iteQ
  rw [if_neg (show ¬ ((C.fragment && textContext C) = true) by rw [h]; simp)]
  rfl

/-- What is in the tree if the start is in order. -/
theorem run_tags [Ok C] (ht : (C.fragment && textContext C) = false) (hno : ¬ Named C c%"selectedcontent") (hraw : C.plan.rawMode = false) (hns : C.ctxNs ≠ poNs)
    (hn : C.fragment = true ∨ (c%"html" ∈ C.plan.allowedTags ∧ c%"head" ∈ C.plan.allowedTags ∧ c%"body" ∈ C.plan.allowedTags)) :
    Spec.Everywhere (ElemOk C) (result C) := by
  unfold result
  rw [run_eq ht, buildRoot_eq]
  obtain ⟨hi, hd, hf, hsel, hctx⟩ := setup_start (C := C) hns (hn.imp id .inr)
  obtain ⟨h1, h2⟩ := setup_ok (C := C) hns
  have st := parseRange_steps (C := C) (setup C (rootState C)).2
  obtain ⟨_, h3⟩ := st.selected ⟨fun e he => absurd he (by simp [hf]), hsel⟩ hno
  have hfx := st.fixed
  simp only [St.fixed, Prod.mk.injEq] at hfx
  refine Inv.finish (hfx.2.2.2.2 ▸ st.inv hi) (st.tidy h1) (st.chain.recOk h2) ?_ h3 (fun c hc => ?_) hraw _
  · have := st.headAt hd.2.1
    rw [hfx.1, hd.1, show ((parseRange C (setup C (rootState C)).2).2.n 0).kind = ((setup C (rootState C)).2.n 0).kind from congrArg Prod.fst this]
    exact hd.2.2
  · rw [hfx.2.2.2.2] at hc
    obtain ⟨k1, k2, k3⟩ := hctx c hc
    rw [hfx.1, hd.1, show ((parseRange C (setup C (rootState C)).2).2.n c).ns = ((setup C (rootState C)).2.n c).ns from congrArg (fun x => x.2.2) (st.headAt k1)]
    exact ⟨k2, k3⟩

end

theorem selected_no {C : Cfg} (h : Spec.NoTag C.E.U c%"selectedcontent" C.html) : ¬ Named C c%"selectedcontent" :=
  not_named h (by decide +kernel) (by decide +kernel) (by decide +kernel)

theorem shell_ok : c%"html" ∈ defaultDocumentPolicy.allowedTags ∧ c%"head" ∈ defaultDocumentPolicy.allowedTags ∧ c%"body" ∈ defaultDocumentPolicy.allowedTags := by
  decide +kernel

/-- C75, documents without `<selectedcontent`: after `JustHTML(html)` with the default policy, every element of the tree, at any depth and inside
templates, is an HTML element whose name is in the policy's `allowed_tags`. Missing from the full claim: inputs with the tag `selectedcontent`, for which
it fails (`C75_select_fails`). -/
theorem C75_document_partial (E : UrlEnv) (T : EntTables) (html : Str) (scripting : Bool) (h : Spec.NoTag E.U c%"selectedcontent" html) :
    Spec.Everywhere (Spec.TagIn defaultDocumentPolicy.allowedTags) (result (safeCfg E T false html (scripting := scripting))) := by
  refine everywhere_imp (fun n hn => ?_) _
    (run_tags (C := safeCfg E T false html (scripting := scripting)) rfl (selected_no (noTag_dropBom h)) rfl (by simp [safeCfg, poNs]) (.inr shell_ok))
  cases n with
  | elem name ns as kids tpl content => exact hn
  | _ => trivial

/-! ### Fragments -/

section
variable {C : Cfg}

theorem heads_insertAt (s : St) (p pos c : Nat) : (s.insertAt p pos c).heads = s.heads := by
  unfold St.insertAt
  dsimp only
  split
  · exact heads_upd _ _ _ fun _ => rfl
  · split
    · exact heads_upd _ _ _ fun _ => rfl
    · exact heads_link _ _ _ _

theorem orErr_heads (f : Cfg → Option Str) (s : St) : (orErr f C s).2.heads = s.heads := by
  unfold orErr
  split <;> rfl

theorem rawLiteral_heads (t : Str) (s : St) : (rawLiteral t C s).2.heads = s.heads ∨ ∃ d, (rawLiteral t C s).2.heads = s.heads ++ [(textNode d).head] := by
  unfold rawLiteral
  rw [bind_eq]
  unfold whQ
  split
  · right
    rw [bind_eq, bind_eq]
    generalize (q _ C _ : Option (Nat × Nat) × St).1 = o
    cases o with
    | none => exact ⟨_, (heads_append _ _ _).trans (heads_add _ _)⟩
    | some o => exact ⟨_, (heads_insertAt _ _ _ _).trans (heads_add _ _)⟩
  · exact .inl rfl

theorem textContext_heads (s : St) : (parseTextContext C s).2.heads = s.heads ∨ ∃ d, (parseTextContext C s).2.heads = s.heads ++ [(textNode d).head] := by
  unfold parseTextContext iteQ
  split
  · rw [bind_eq, bind_eq]
    unfold whQ
    rw [← orErr_heads (C := C) (fun C => cleanText C true C.html) s]
    split
    · exact .inr ⟨_, (heads_append _ _ _).trans (heads_add _ _)⟩
    · exact .inl rfl
  · exact rawLiteral_heads _ _

/-- A fragment that is all text has no elements. -/
theorem text_result (ht : (C.fragment && textContext C) = true) (tags : List Str) : Spec.Everywhere (Spec.TagIn tags) (result C) := by
  unfold result
  refine treeF_all trivial (fun i kids tpl content => ?_) _ _
  have e : run C = (parseTextContext C (buildRoot C (init C)).2).2 := by
    unfold run parse
    rw [bind_eq]
    unfold iteQ
    rw [if_pos ht]
  have hroot : ∀ x ∈ (buildRoot C (init C)).2.heads, x.1 = .document ∨ x.1 = .fragment := by
    intro x hx
    have h1 : (buildRoot C (init C)).2.heads = [] ++ [(if C.fragment then ({ kind := .fragment, name := c%"#document-fragment" } : ENode)
      else { kind := .document, name := c%"#document" }).head] := heads_add (init C) _
    rw [h1] at hx
    simp only [List.nil_append, List.mem_singleton] at hx
    rw [hx]
    split
    · exact .inr rfl
    · exact .inl rfl
  have hall : ∀ x ∈ (run C).heads, x.1 = .document ∨ x.1 = .fragment ∨ x.1 = .text := by
    intro x hx
    rw [e] at hx
    rcases textContext_heads (C := C) (buildRoot C (init C)).2 with h | ⟨d, h⟩
    · rw [h] at hx; exact (hroot x hx).imp id .inl
    · rw [h] at hx
      rcases List.mem_append.1 hx with hx | hx
      · exact (hroot x hx).imp id .inl
      · simp only [List.mem_singleton] at hx; rw [hx]; exact .inr (.inr rfl)
  have hk : ((run C).n i).kind = .document ∨ ((run C).n i).kind = .fragment ∨ ((run C).n i).kind = .text := by
    rcases head_mem (run C) i with h | h
    · exact hall _ h
    · exact .inr (.inr (congrArg Prod.fst h))
  unfold shown
  rcases hk with h | h | h <;> (rw [h]; trivial)

end

/-- C75, fragments without `<selectedcontent`, in every context: every element of the tree, at any depth and inside templates, is an HTML element whose name
is in the policy's `allowed_tags`; the context element itself is never left in the tree. Missing from the full claim: inputs with the tag `selectedcontent`. -/
theorem C75_context_partial (E : UrlEnv) (T : EntTables) (html ctx : Str) (ctxNs : Option Str) (scripting : Bool)
    (h : Spec.NoTag E.U c%"selectedcontent" html) (hpo : ctxNs ≠ some c%"justhtml-parser-only") :
    Spec.Everywhere (Spec.TagIn defaultPolicy.allowedTags) (result (safeCfg E T true html ctx ctxNs scripting)) := by
  cases ht : textContext (safeCfg E T true html ctx ctxNs scripting) with
  | true =>
    refine everywhere_imp (fun n hn => ?_) _ (text_result (C := safeCfg E T true html ctx ctxNs scripting) (by rw [ht]; rfl) [])
    cases n with
    | elem name ns as kids tpl content => exact absurd hn.2 (by simp)
    | _ => trivial
  | false =>
    refine everywhere_imp (fun n hn => ?_) _ (run_tags (C := safeCfg E T true html ctx ctxNs scripting) (by rw [ht]; rfl) (selected_no (noTag_dropBom h)) rfl hpo (.inl rfl))
    cases n with
    | elem name ns as kids tpl content => exact hn
    | _ => trivial

/-- C75, fragments without `<selectedcontent`, in every HTML context: `JustHTML(html, fragment=True)`, for which it is `div`, and every other. -/
theorem C75_fragment_partial (E : UrlEnv) (T : EntTables) (html ctx : Str) (ctxNs : Option Str) (scripting : Bool)
    (h : Spec.NoTag E.U c%"selectedcontent" html) (hns : ctxNs = none ∨ ctxNs = some c%"html") :
    Spec.Everywhere (Spec.TagIn defaultPolicy.allowedTags) (result (safeCfg E T true html ctx ctxNs scripting)) :=
  C75_context_partial E T html ctx ctxNs scripting h (by rcases hns with rfl | rfl <;> simp)

/-- C75, for a custom policy that, like the two default ones, allows none of the three elements that the parser itself acts upon, with one of which it can
fail: every element of the tree is an HTML element with an allowed name. A document has an `html`, a `head` and a `body`, allowed or not, so for documents
these must be allowed. -/
theorem C75_policy_partial (C : Cfg) (p : SafePolicy) (sc : Bool) (hp : C.plan = compilePlan C.E.U p sc)
    (hno : ∀ x ∈ [c%"input", c%"option", c%"selectedcontent"], x ∉ p.allowedTags) (hns : C.ctxNs ≠ some c%"justhtml-parser-only")
    (hshell : C.fragment = false → ∀ x ∈ [c%"html", c%"head", c%"body"], x ∈ p.allowedTags) (h : Spec.NoTag C.E.U c%"selectedcontent" C.html) :
    Spec.Everywhere (Spec.TagIn p.allowedTags) (result C) := by
  have : Ok C := ⟨.inr ⟨p, sc, hp, hno⟩⟩
  have htags : C.plan.allowedTags = p.allowedTags := by rw [hp]; rfl
  cases ht : C.fragment && textContext C with
  | true =>
    refine everywhere_imp (fun n hn => ?_) _ (text_result (C := C) ht [])
    cases n with
    | elem name ns as kids tpl content => exact absurd hn.2 (by simp)
    | _ => trivial
  | false =>
    have hsh : C.fragment = true ∨ (c%"html" ∈ C.plan.allowedTags ∧ c%"head" ∈ C.plan.allowedTags ∧ c%"body" ∈ C.plan.allowedTags) := by
      cases hf : C.fragment with
      | true => exact .inl rfl
      | false => rw [htags]; exact .inr ⟨hshell hf _ (by simp), hshell hf _ (by simp), hshell hf _ (by simp)⟩
    refine everywhere_imp (fun n hn => ?_) _ (run_tags (C := C) ht (selected_no h) (by rw [hp]; rfl) hns hsh)
    cases n with
    | elem name ns as kids tpl content => exact htags ▸ hn
    | _ => trivial

/-- A test for `NoTag` when names are folded as in ASCII. -/
def noTagB (name : Str) : Str → Bool
  | [] => true
  | c :: r => (c ≠ '<' || lowerA (r.take name.length) ≠ name) && noTagB name r

theorem noTag_of {U : Uni} (hU : ∀ w, U.lower w = lowerA w) {name : Str} : ∀ {html : Str}, noTagB name html = true → Spec.NoTag U name html
  | [], _ => fun pre w post e => absurd e (by simp)
  | c :: r, h => by
    simp only [noTagB, Bool.and_eq_true, Bool.or_eq_true, decide_eq_true_eq] at h
    intro pre w post e
    cases pre with
    | cons d pre =>
      rw [List.cons_append, List.cons.injEq] at e
      exact noTag_of hU h.2 pre w post e.2
    | nil =>
      rw [List.nil_append, List.cons.injEq] at e
      have key : lowerA w ≠ name := by
        intro k
        rcases h.1 with h1 | h1
        · exact h1 e.1
        · apply h1
          have hl : w.length = name.length := by rw [← k]; simp [lowerA]
          rw [e.2, ← hl, List.take_left']
          · exact k
          · rfl
      exact ⟨key, by rw [hU]; exact key⟩

/-- The hypothesis is met by an input that opens almost everything else; what is not allowed disappears. -/
example : Spec.NoTag Uni.sample c%"selectedcontent" c%"<p><script>x</script><svg><a></svg><select><option><b>y" ∧
    safeHtml false c%"<p><script>x</script><svg><a></svg><select><option><b>y" =
      .ok c%"<html><head></head><body><p><b>y</b></p></body></html>" := by
  exact ⟨noTag_of (fun _ => rfl) (by decide +kernel), by decide +kernel⟩

/-- A policy that allows only paragraphs. -/
example : let p : SafePolicy := { defaultPolicy with allowedTags := [c%"p"] }
    let C : Cfg := { safeCfg UrlEnv.sample EntTables.sample true c%"<div><p>x<b>y" with plan := compilePlan UrlEnv.sample.U p true }
    (∀ x ∈ [c%"input", c%"option", c%"selectedcontent"], x ∉ p.allowedTags) ∧ toHtmlCompact UrlEnv.sample.U none (result C) = .ok c%"<p>xy</p>" := by
  exact ⟨by decide +kernel, by with_unfolding_all decide +kernel⟩

/-- In the context `html` nothing is left of the context, its `head` and its `body`. -/
example : Spec.NoTag Uni.sample c%"selectedcontent" c%"<head><title>t</title><body><p>x<html>y" ∧
    toHtmlCompact UrlEnv.sample.U none (result (safeCfg UrlEnv.sample EntTables.sample true c%"<head><title>t</title><body><p>x<html>y" c%"html" none false)) = .ok c%"t<p>xy</p>" := by
  exact ⟨noTag_of (fun _ => rfl) (by decide +kernel), by with_unfolding_all decide +kernel⟩

/-- A context that is not allowed, and one in SVG. -/
example : c%"form" ∉ defaultPolicy.allowedTags ∧
    toHtmlCompact UrlEnv.sample.U none (result (safeCfg UrlEnv.sample EntTables.sample true c%"<form><p>x" c%"form" none false)) = .ok c%"<p>x</p>" ∧
    toHtmlCompact UrlEnv.sample.U none (result (safeCfg UrlEnv.sample EntTables.sample true c%"<desc>a</desc>b<p>x" c%"svg" (some c%"svg") false)) = .ok c%"b<p>x</p>" := by
  refine ⟨by decide +kernel, ?_, ?_⟩ <;> with_unfolding_all decide +kernel

end JH.Eng
