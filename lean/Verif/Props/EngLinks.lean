import Verif.Lemmas.EngAttr
import Verif.Props.EngSafe
import Verif.Props.EngUrl

/-! C76 and C79: the attributes that the default policy leaves. -/
namespace JH.Eng
open Spec (NoTag Everywhere EverywhereL TagIn AttrsIn LinksIn)

set_option maxRecDepth 100000
seal result

mutual
theorem everywhere_and {P Q : Node → Prop} : ∀ n, Everywhere P n → Everywhere Q n → Everywhere (fun n => P n ∧ Q n) n
  | .elem name ns as kids tpl content, h, k => by
    simp only [Everywhere] at h k ⊢
    exact ⟨⟨h.1, k.1⟩, everywhereL_and kids h.2.1 k.2.1, fun e => everywhereL_and content (h.2.2 e) (k.2.2 e)⟩
  | .doc kids, h, k => by
    simp only [Everywhere] at h k ⊢
    exact ⟨⟨h.1, k.1⟩, everywhereL_and kids h.2 k.2⟩
  | .text d, h, k => ⟨h, k⟩
  | .comment d, h, k => ⟨h, k⟩
  | .pi d, h, k => ⟨h, k⟩
  | .doctype a b c, h, k => ⟨h, k⟩
theorem everywhereL_and {P Q : Node → Prop} : ∀ l, EverywhereL P l → EverywhereL Q l → EverywhereL (fun n => P n ∧ Q n) l
  | [], _, _ => trivial
  | n :: l, h, k => by
    simp only [EverywhereL] at h k ⊢
    exact ⟨everywhere_and n h.1 k.1, everywhereL_and l h.2 k.2⟩
end

section
variable {C : Cfg}

/-- What is known of the attributes of an element in the tree. -/
def HtmlAttrs (C : Cfg) : Node → Prop
  | .elem name ns as _ _ _ => ns ≠ none ∧ Native ns ∧ AttrsOk C name as
  | _ => True

theorem run_attrs [Ok C] (ht : (C.fragment && textContext C) = false) (hsvg : ¬ Named C c%"svg") (hmath : ¬ Named C c%"math") (s : St)
    (hs : (setup C (buildRoot C (init C)).2).2 = s) (hf : s.fmt = []) (hk : AInv C s)
    (h0 : ∀ x ∈ s.heads, ∀ ns, x.2.2 = some ns → ns ≠ c%"justhtml-parser-only" → ns = c%"html") : Everywhere (HtmlAttrs C) (result C) := by
  have hA : ∀ y, Named C y → nsOfStart y = c%"html" := by
    intro y hy
    unfold nsOfStart
    rw [if_neg (fun (e : y = c%"svg") => hsvg (e ▸ hy)), if_neg (fun (e : y = c%"math") => hmath (e ▸ hy))]
  have st := parseRange_steps (C := C) s
  have hi := st.ainv hA h0 (Sourced.start hf h0) hk
  have hns := (st.sourced (A := (· = c%"html")) rfl hA h0 (Sourced.start hf h0)).ns
  have hall : ∀ x ∈ (run C).fulls, x.1.2.2 ≠ none → Native x.1.2.2 ∧ AttrsOk C x.1.2.1 x.2 := by
    rw [run_eq ht, hs]
    intro x hx
    rcases (inferInstance : Copying finish).out C _ x hx with h | h
    · intro h1
      have h2 : Native x.1.2.2 := by
        obtain ⟨i, hi, rfl⟩ := full_of_mem h
        exact fun n hn hne => hns i hi n hn hne
      exact ⟨h2, hi.full x h h1 h2⟩
    · rw [h]; exact fun e => absurd e (by simp [ENode.full, ENode.head, default, instInhabitedENode.default])
  unfold result
  refine treeF_all trivial (fun i kids tpl content => ?_) _ _
  have hfull : ((run C).n i).ns ≠ none → Native ((run C).n i).ns ∧ AttrsOk C ((run C).n i).name ((run C).n i).attrs := by
    rcases full_mem (run C) i with h | h
    · exact hall _ h
    · intro e
      have : ((run C).n i).ns = none := congrArg (fun x => x.1.2.2) h
      exact absurd this e
  have hkind := run_kind (C := C) i
  unfold HeadOk ENode.head at hkind
  unfold shown
  cases hk : ((run C).n i).kind <;> rw [hk] at hkind <;> simp at hkind <;> first | trivial | exact ⟨hkind, hfull hkind⟩

end

/-! ### The default policy -/

theorem default_byTag (U : Uni) : defaultPolicy.byTag U = defaultPolicy.byTag Uni.sample := by
  unfold SafePolicy.byTag
  refine List.map_congr_left fun e he => ?_
  have : lowerA e.1 = e.1 ∧ e.1.all isAscii = true := by
    revert e
    have : (defaultPolicy.allowedAttributes.all fun e => decide (lowerA e.1 = e.1) && e.1.all isAscii) = true := by decide +kernel
    intro e he
    have := List.all_eq_true.mp this e (List.mem_filter.1 he).1
    simpa using this
  rw [U.lower_ascii _ this.2, Uni.sample.lower_ascii _ this.2]

/-- The attributes that are allowed for a name. -/
def defaultFor (name : Str) : List Str := ((defaultPolicy.byTag Uni.sample).lookup name).getD defaultPolicy.global

theorem defaultFor_in {name key : Str} (h : key ∈ defaultFor name) : ∃ p ∈ defaultPolicy.allowedAttributes, (p.1 = c%"*" ∨ p.1 = name) ∧ key ∈ p.2 := by
  unfold defaultFor at h
  cases hl : (defaultPolicy.byTag Uni.sample).lookup name with
  | none =>
    rw [hl] at h
    exact ⟨(c%"*", [c%"class", c%"id", c%"title", c%"lang", c%"dir"]), by decide +kernel, .inl rfl, h⟩
  | some v =>
    rw [hl] at h
    have hm := lookup_mem hl
    have : ∀ e ∈ defaultPolicy.byTag Uni.sample, ∀ k ∈ e.2, ∃ p ∈ defaultPolicy.allowedAttributes, (p.1 = c%"*" ∨ p.1 = e.1) ∧ k ∈ p.2 := by decide +kernel
    exact this _ hm key h

theorem defaultFor_href {name : Str} (h : c%"href" ∈ defaultFor name) : name = c%"a" := by
  unfold defaultFor at h
  cases hl : (defaultPolicy.byTag Uni.sample).lookup name with
  | none => rw [hl] at h; exact absurd h (by decide +kernel)
  | some v =>
    rw [hl] at h
    have : ∀ e ∈ defaultPolicy.byTag Uni.sample, c%"href" ∈ e.2 → e.1 = c%"a" := by decide +kernel
    exact this _ (lookup_mem hl) h

theorem defaultFor_src {name : Str} (h : c%"src" ∈ defaultFor name) : name = c%"img" := by
  unfold defaultFor at h
  cases hl : (defaultPolicy.byTag Uni.sample).lookup name with
  | none => rw [hl] at h; exact absurd h (by decide +kernel)
  | some v =>
    rw [hl] at h
    have : ∀ e ∈ defaultPolicy.byTag Uni.sample, c%"src" ∈ e.2 → e.1 = c%"img" := by decide +kernel
    exact this _ (lookup_mem hl) h

/-- The rule for links. -/
def hrefRule : UrlRule := { schemes := [c%"http", c%"https", c%"mailto", c%"tel"], handling := some .allow }

/-- The rule for images. -/
def srcRule : UrlRule := { schemes := [], handling := some .allow, resolve := none }

theorem default_href (U : Uni) : urlAction U defaultUrls defaultUrls.rules c%"a" c%"href" = some (.url, hrefRule, some true) := by
  have : urlAction U defaultUrls defaultUrls.rules c%"a" c%"href" = urlAction Uni.sample defaultUrls defaultUrls.rules c%"a" c%"href" := rfl
  rw [this]
  decide +kernel

theorem default_src (U : Uni) : urlAction U defaultUrls defaultUrls.rules c%"img" c%"src" = some (.url, srcRule, some true) := by
  have : urlAction U defaultUrls defaultUrls.rules c%"img" c%"src" = urlAction Uni.sample defaultUrls defaultUrls.rules c%"img" c%"src" := rfl
  rw [this]
  decide +kernel

theorem hrefRule_resolve : ∀ r, hrefRule.resolve = some r → Spec.SchemeName r := by
  intro r h
  have : r = c%"https" := (Option.some.inj h).symm
  rw [this]; unfold Spec.SchemeName; decide

theorem srcRule_resolve : ∀ r, srcRule.resolve = some r → Spec.SchemeName r := by
  intro r h
  exact absurd h (by simp [srcRule])

/-- A URL that the check of an attribute returned. -/
theorem attrOut_url {C : Cfg} (hp : C.plan.urlPolicy = defaultUrls) {a : TagAction} {key raw v : Str} {rule : UrlRule} (hu : a.urlAttr key = some (.url, rule, some true))
    (hh : rule.handling = some .allow) (hr : ∀ r, rule.resolve = some r → Spec.SchemeName r) (h : attrOut C a key raw = some v) :
    (∀ sc, Spec.browserScheme v = some sc → sc ∈ rule.schemes) ∧ Spec.networkPath v = false := by
  unfold attrOut at h
  rw [hu] at h
  dsimp only at h
  generalize (if C.plan.stripInvisible = true then stripInvisible raw else raw) = w at h
  cases hf : fastUrl C.E rule true w with
  | some r =>
    rw [hf] at h
    dsimp only at h
    exact C15_fast C.E rule true w v hr (by rw [hf, h])
  | none =>
    rw [hf] at h
    dsimp only at h
    unfold sinkValue sanitizeSimple at h
    rw [hp] at h
    have he : effHandling defaultUrls rule = .allow := by unfold effHandling; rw [hh]; rfl
    rw [he] at h
    exact ⟨C15_scheme _ _ _ _ _ _ _ _ _ hr h, (C16_characters _ _ _ _ _ _ _ _ _ hr h).2⟩

/-- The attributes of an allowed element. -/
theorem attrs_default {E : UrlEnv} {T : EntTables} {fragment : Bool} {html ctx : Str} {ctxNs : Option Str} {scripting : Bool} {name : Str} {as : Attrs} {ns : Option Str}
    {kids content : List Node} {tpl : Bool} (hn : name ∈ (safeCfg E T fragment html ctx ctxNs scripting).plan.allowedTags)
    (h : AttrsOk (safeCfg E T fragment html ctx ctxNs scripting) name as) :
    AttrsIn defaultPolicy.allowedAttributes (.elem name ns as kids tpl content) ∧ LinksIn [c%"http", c%"https", c%"mailto", c%"tel"] (.elem name ns as kids tpl content) := by
  obtain ⟨p, hpl, hpp⟩ : ∃ p : SafePolicy, (safeCfg E T fragment html ctx ctxNs scripting).plan = compilePlan E.U p scripting ∧
      p.allowedAttributes = defaultPolicy.allowedAttributes ∧ p.urlPolicy = defaultUrls := by
    cases fragment with
    | true => exact ⟨defaultPolicy, rfl, rfl, rfl⟩
    | false => exact ⟨defaultDocumentPolicy, rfl, rfl, rfl⟩
  have hE : (safeCfg E T fragment html ctx ctxNs scripting).E = E := rfl
  generalize safeCfg E T fragment html ctx ctxNs scripting = C at h hn hpl hE
  have hby : p.byTag E.U = defaultPolicy.byTag Uni.sample := by
    rw [← default_byTag E.U]; unfold SafePolicy.byTag SafePolicy.global; rw [hpp.1]
  have hgl : p.global = defaultPolicy.global := by unfold SafePolicy.global; rw [hpp.1]
  rcases h with ⟨h, -⟩ | ⟨-, h | ⟨a, h1, h2⟩⟩
  · rw [hpl] at h; exact absurd h (by simp [compilePlan])
  · exact absurd hn h
  · rw [hpl] at h1 hn
    simp only [compilePlan, compileAction] at h1 hn
    split at h1
    · exact absurd h1 (by simp)
    simp only [Option.some.injEq] at h1
    have hok : p.allowedTags.contains name = true := by simpa using hn
    have ha : a.allowedAttrs = defaultFor name := by
      rw [← h1]; simp only [hok, if_true, hby, hgl]; rfl
    have hu : ∀ k, k ∈ defaultFor name → a.urlAttr k = urlAction E.U defaultUrls defaultUrls.rules name k := by
      intro k hk
      have : (if (if p.allowedTags.contains name = true then ((p.byTag E.U).lookup name).getD p.global else []).contains k then
        urlAction E.U p.urlPolicy p.urlPolicy.rules name k else none) = urlAction E.U defaultUrls defaultUrls.rules name k := by
        rw [if_pos hok, hby, hgl, hpp.2, if_pos]
        exact List.contains_iff_mem.2 hk
      rw [← this, ← h1]
    refine ⟨fun kv hkv => defaultFor_in (ha ▸ (h2 kv hkv).1), fun v hv => ?_, fun v hv => ?_⟩
    · obtain ⟨h3, raw, u, h4, h5⟩ := h2 _ hv
      rw [ha] at h3
      have hna := defaultFor_href h3
      have h6 := hu _ h3
      subst hna
      rw [default_href] at h6
      exact ⟨u, h5, attrOut_url (by rw [hpl]; exact hpp.2) h6 rfl hrefRule_resolve h4⟩
    · obtain ⟨h3, raw, u, h4, h5⟩ := h2 _ hv
      rw [ha] at h3
      have hna := defaultFor_src h3
      have h6 := hu _ h3
      subst hna
      rw [default_src] at h6
      have := attrOut_url (by rw [hpl]; exact hpp.2) h6 rfl srcRule_resolve h4
      refine ⟨u, h5, ?_, this.2⟩
      cases hb : Spec.browserScheme u with
      | none => rfl
      | some sc => exact absurd (this.1 sc hb) (by simp [srcRule])

/-- What a user sees of the attributes: allowed ones only, with harmless addresses. -/
def Clean (n : Node) : Prop := AttrsIn defaultPolicy.allowedAttributes n ∧ LinksIn [c%"http", c%"https", c%"mailto", c%"tel"] n

theorem clean_of {E : UrlEnv} {T : EntTables} {fragment : Bool} {html ctx : Str} {ctxNs : Option Str} {scripting : Bool} {tags : List Str}
    (htags : (safeCfg E T fragment html ctx ctxNs scripting).plan.allowedTags = tags)
    (h : Everywhere (TagIn tags) (result (safeCfg E T fragment html ctx ctxNs scripting)))
    (k : Everywhere (HtmlAttrs (safeCfg E T fragment html ctx ctxNs scripting)) (result (safeCfg E T fragment html ctx ctxNs scripting))) :
    Everywhere Clean (result (safeCfg E T fragment html ctx ctxNs scripting)) := by
  refine everywhere_imp (fun n hn => ?_) _ (everywhere_and _ h k)
  cases n with
  | elem name ns as kids tpl content => exact attrs_default (htags ▸ hn.1.2) hn.2.2.2
  | _ => exact ⟨trivial, trivial⟩

theorem ainv_start {C : Cfg} [Ok C] {s : St} (hf : s.fmt = []) (ha : ∀ x ∈ s.fulls, x.2 = []) (hs : C.fragment = false → Shelled s)
    (hb : C.plan.rawMode = true → BodyNamed s) : AInv C s :=
  ⟨fun x hx _ _ => by rw [ha x hx]; exact attrsOk_nil _, fun e he => absurd he (by simp [hf]), hs, hb⟩

/-- The attributes of a document. -/
theorem document_run (C : Cfg) [Ok C] (hC : C.fragment = false) (hsvg : ¬ Named C c%"svg") (hmath : ¬ Named C c%"math") :
    Everywhere (HtmlAttrs C) (result C) := by
  have hs : ∀ C : Cfg, C.fragment = false → (setup C (buildRoot C (init C)).2).2.heap.map (fun n => (n.full, n.name)) =
      [(((.document, c%"#document", none), []), c%"#document"), (((.element, c%"html", some c%"html"), []), c%"html"),
        (((.element, c%"head", some c%"html"), []), c%"head"), (((.element, c%"body", some c%"html"), []), c%"body")] ∧
      (setup C (buildRoot C (init C)).2).2.html = some 1 ∧ (setup C (buildRoot C (init C)).2).2.head = some 2 ∧ (setup C (buildRoot C (init C)).2).2.body = 3 ∧
      (setup C (buildRoot C (init C)).2).2.fmt = [] := by
    intro C hC
    cases C
    dsimp only at hC
    subst hC
    exact ⟨rfl, rfl, rfl, rfl, rfl⟩
  obtain ⟨h1, h2, h3, h4, h5⟩ := hs C hC
  generalize hst : (setup C (buildRoot C (init _)).2).2 = s at h1 h2 h3 h4 h5
  have hfull : s.fulls = [((.document, c%"#document", none), []), ((.element, c%"html", some c%"html"), []),
      ((.element, c%"head", some c%"html"), []), ((.element, c%"body", some c%"html"), [])] := by
    have := congrArg (List.map Prod.fst) h1
    rw [List.map_map] at this
    exact this
  have hlen : s.heap.length = 4 := by
    have := congrArg List.length h1
    simpa using this
  have hname : ∀ i v, (s.heap.map (fun n => (n.full, n.name)))[i]? = some v → (s.n i).name = v.2 := by
    intro i v hv
    rw [List.getElem?_map, Option.map_eq_some_iff] at hv
    obtain ⟨n, hn, rfl⟩ := hv
    rw [St.n, List.getD_eq_getElem?_getD, hn]
    rfl
  rw [h1] at hname
  refine run_attrs (by rw [hC]; rfl) hsvg hmath s hst h5 (ainv_start h5 ?_ (fun _ => ⟨?_, ?_, ?_⟩) fun _ => ⟨by rw [h4, hlen]; decide, fun _ => by rw [h4]; exact hname 3 _ rfl⟩) ?_
  · rw [hfull]; simp
  · intro i hi
    have : 1 = i := Option.some.inj (h2.symm.trans hi)
    subst this
    exact ⟨by rw [hlen]; decide, hname 1 _ rfl⟩
  · intro i hi
    have : 2 = i := Option.some.inj (h3.symm.trans hi)
    subst this
    exact ⟨by rw [hlen]; decide, hname 2 _ rfl⟩
  · rw [h4]
    exact ⟨by rw [hlen]; decide, hname 3 _ rfl⟩
  · intro x hx ns hns _
    rw [heads_fulls, hfull] at hx
    simp only [List.map_cons, List.map_nil, List.mem_cons, List.not_mem_nil, or_false] at hx
    rcases hx with rfl | rfl | rfl | rfl
    · exact absurd hns (by simp)
    · exact (Option.some.inj hns).symm
    · exact (Option.some.inj hns).symm
    · exact (Option.some.inj hns).symm

theorem document_attrs (E : UrlEnv) (T : EntTables) (html : Str) (scripting : Bool)
    (hsvg : NoTag E.U c%"svg" html) (hmath : NoTag E.U c%"math" html) :
    Everywhere (HtmlAttrs (safeCfg E T false html (scripting := scripting))) (result (safeCfg E T false html (scripting := scripting))) :=
  document_run _ rfl (not_named (noTag_dropBom hsvg) (by decide +kernel) (by decide +kernel) (by decide +kernel))
    (not_named (noTag_dropBom hmath) (by decide +kernel) (by decide +kernel) (by decide +kernel))

theorem document_clean (E : UrlEnv) (T : EntTables) (html : Str) (scripting : Bool) (h : NoTag E.U c%"selectedcontent" html)
    (hsvg : NoTag E.U c%"svg" html) (hmath : NoTag E.U c%"math" html) : Everywhere Clean (result (safeCfg E T false html (scripting := scripting))) :=
  clean_of rfl (C75_document_partial E T html scripting h) (document_attrs E T html scripting hsvg hmath)

/-- The attributes of a fragment in an HTML context. -/
theorem fragment_run (C : Cfg) [Ok C] (hC : C.fragment = true) (hraw : C.plan.rawMode = false) (hns : C.ctxNsOf = c%"html") (hsvg : ¬ Named C c%"svg") (hmath : ¬ Named C c%"math") :
    Everywhere (HtmlAttrs C) (result C) := by
  cases ht : textContext C with
  | true =>
    refine everywhere_imp (fun n hn => ?_) _ (text_result (C := C) (by rw [hC, ht]; rfl) [])
    cases n with
    | elem name ns as kids tpl content => exact absurd hn.2 (by simp)
    | _ => trivial
  | false =>
    have hpo : C.ctxNs ≠ poNs := by
      intro e
      unfold Cfg.ctxNsOf at hns
      rw [e] at hns
      exact absurd hns (by decide +kernel)
    have hpl := setup_plain (C := C)
    have hf := (setup_start (C := C) hpo (.inl hC)).fmt
    refine run_attrs (by rw [hC, ht]; rfl) hsvg hmath _ rfl hf (ainv_start hf (fun x hx => (hpl x hx).1) (fun h => absurd (hC.symm.trans h) (by simp)) fun h => absurd (hraw.symm.trans h) (by simp)) ?_
    intro x hx ns hn _
    rw [buildRoot_eq, heads_fulls] at hx
    obtain ⟨y, hy, rfl⟩ := List.mem_map.1 hx
    rcases (hpl y hy).2 ns hn with h | h
    · exact h
    · exact h.2.trans hns

theorem fragment_attrs (E : UrlEnv) (T : EntTables) (html ctx : Str) (ctxNs : Option Str) (scripting : Bool)
    (hsvg : NoTag E.U c%"svg" html) (hmath : NoTag E.U c%"math" html) (hns : ctxNs = none ∨ ctxNs = some c%"html") :
    Everywhere (HtmlAttrs (safeCfg E T true html ctx ctxNs scripting)) (result (safeCfg E T true html ctx ctxNs scripting)) :=
  fragment_run _ rfl rfl (by rcases hns with rfl | rfl <;> rfl) (not_named (noTag_dropBom hsvg) (by decide +kernel) (by decide +kernel) (by decide +kernel))
    (not_named (noTag_dropBom hmath) (by decide +kernel) (by decide +kernel) (by decide +kernel))

theorem fragment_clean (E : UrlEnv) (T : EntTables) (html ctx : Str) (ctxNs : Option Str) (scripting : Bool)
    (h : NoTag E.U c%"selectedcontent" html) (hsvg : NoTag E.U c%"svg" html) (hmath : NoTag E.U c%"math" html)
    (hns : ctxNs = none ∨ ctxNs = some c%"html") : Everywhere Clean (result (safeCfg E T true html ctx ctxNs scripting)) :=
  clean_of rfl (C75_fragment_partial E T html ctx ctxNs scripting h hns) (fragment_attrs E T html ctx ctxNs scripting hsvg hmath hns)

/-- C76, documents without `<svg`, `<math` and `<selectedcontent`: after `JustHTML(html)` with the default policy, every attribute of every element is one
that the policy allows for that element. Missing from the full claim: inputs with those tags, for which it fails (`C76_adopted_fails`). -/
theorem C76_document_partial (E : UrlEnv) (T : EntTables) (html : Str) (scripting : Bool) (h : NoTag E.U c%"selectedcontent" html)
    (hsvg : NoTag E.U c%"svg" html) (hmath : NoTag E.U c%"math" html) :
    Everywhere (AttrsIn defaultPolicy.allowedAttributes) (result (safeCfg E T false html (scripting := scripting))) :=
  everywhere_imp (fun _ hn => hn.1) _ (document_clean E T html scripting h hsvg hmath)

/-- C76, fragments without those tags, in any HTML context. -/
theorem C76_fragment_partial (E : UrlEnv) (T : EntTables) (html ctx : Str) (ctxNs : Option Str) (scripting : Bool)
    (h : NoTag E.U c%"selectedcontent" html) (hsvg : NoTag E.U c%"svg" html) (hmath : NoTag E.U c%"math" html)
    (hns : ctxNs = none ∨ ctxNs = some c%"html") :
    Everywhere (AttrsIn defaultPolicy.allowedAttributes) (result (safeCfg E T true html ctx ctxNs scripting)) :=
  everywhere_imp (fun _ hn => hn.1) _ (fragment_clean E T html ctx ctxNs scripting h hsvg hmath hns)

/-- `Spec.LinksIn`, as a computation. -/
def linksInB (schemes : List Str) : Node → Bool
  | .elem _ _ as _ _ _ => as.all fun a =>
      (a.1 ≠ c%"href" || (match a.2 with | none => false | some u => (match Spec.browserScheme u with | none => true | some sc => schemes.contains sc) && !Spec.networkPath u))
  | _ => true

theorem linksInB_of {schemes : List Str} : ∀ n, LinksIn schemes n → linksInB schemes n = true
  | .elem name ns as _ _ _, h => by
    simp only [linksInB, List.all_eq_true]
    intro a ha
    by_cases he : a.1 = c%"href"
    · obtain ⟨k, v⟩ := a
      dsimp only at he
      subst he
      obtain ⟨u, rfl, h1, h2⟩ := h.1 v ha
      simp only [h2, Bool.not_false, Bool.and_true, Bool.or_eq_true]
      right
      cases hb : Spec.browserScheme u with
      | none => rfl
      | some sc => simpa using h1 sc hb
    · simp [he]
  | .doc _, _ => rfl
  | .text _, _ => rfl
  | .comment _, _ => rfl
  | .pi _, _ => rfl
  | .doctype _ _ _, _ => rfl

theorem foreignLink_scheme : ∀ fragment, everyB (linksInB [c%"http", c%"https", c%"mailto", c%"tel"]) (result (safeCfg UrlEnv.sample EntTables.sample fragment foreignLink)) = false := by
  intro fragment
  cases fragment <;> decide +kernel

/-- C79 fails (F44): with the default policy there is an input whose result contains a link with a `javascript:` address. -/
theorem C79_adopted_fails : ∀ fragment : Bool, ¬ ∀ (E : UrlEnv) (T : EntTables) (html : Str),
    Everywhere (LinksIn [c%"http", c%"https", c%"mailto", c%"tel"]) (result (safeCfg E T fragment html)) := fun fragment h =>
  not_everywhere linksInB_of (foreignLink_scheme fragment) (h UrlEnv.sample EntTables.sample foreignLink)

/-- C79, documents without `<svg`, `<math` and `<selectedcontent`: after `JustHTML(html)` with the default policy, for a browser every `href` is relative
to the page or an `http`, `https`, `mailto` or `tel` address, and every `src` stays on the host of the page. Missing from the full claim: inputs with those
tags, for which it fails (`C79_adopted_fails`). -/
theorem C79_document_partial (E : UrlEnv) (T : EntTables) (html : Str) (scripting : Bool) (h : NoTag E.U c%"selectedcontent" html)
    (hsvg : NoTag E.U c%"svg" html) (hmath : NoTag E.U c%"math" html) :
    Everywhere (LinksIn [c%"http", c%"https", c%"mailto", c%"tel"]) (result (safeCfg E T false html (scripting := scripting))) :=
  everywhere_imp (fun _ hn => hn.2) _ (document_clean E T html scripting h hsvg hmath)

/-- C79, fragments without those tags, in any HTML context. -/
theorem C79_fragment_partial (E : UrlEnv) (T : EntTables) (html ctx : Str) (ctxNs : Option Str) (scripting : Bool)
    (h : NoTag E.U c%"selectedcontent" html) (hsvg : NoTag E.U c%"svg" html) (hmath : NoTag E.U c%"math" html)
    (hns : ctxNs = none ∨ ctxNs = some c%"html") :
    Everywhere (LinksIn [c%"http", c%"https", c%"mailto", c%"tel"]) (result (safeCfg E T true html ctx ctxNs scripting)) :=
  everywhere_imp (fun _ hn => hn.2) _ (fragment_clean E T html ctx ctxNs scripting h hsvg hmath hns)

/-- The hypotheses are met by an input with attributes of every sort; the bad ones disappear. -/
example : (∀ name ∈ [c%"selectedcontent", c%"svg", c%"math"], NoTag Uni.sample name c%"<a href=javascript:x onclick=y class=z><a href='//h/&amp;' title=t><img src=//h><img src=h>") ∧
    safeHtml true c%"<a href=javascript:x onclick=y class=z><a href='//h/&amp;' title=t><img src=//h><img src=h>" =
      .ok c%"<a class=\"z\"></a><a href=\"https://h/&amp;\" title=\"t\"><img><img src=\"h\"></a>" := by
  refine ⟨fun name hn => noTag_of (fun _ => rfl) ?_, by decide +kernel⟩
  simp only [List.mem_cons, List.not_mem_nil, or_false] at hn
  rcases hn with rfl | rfl | rfl <;> decide +kernel

end JH.Eng
