import Verif.Lemmas.EngFlowSafe
import Verif.Props.EngRound
import Verif.Props.EngLinks
import Verif.Lemmas.EngVis
import Verif.Props.EngUrlIdem

/-! C82: a tree that the default policy leaves alone survives being written and parsed with the default policy. -/
namespace JH.Eng.Props
open JH.Spec

set_option maxRecDepth 100000
seal result

/-- The action of a name in the plan of a policy. -/
theorem compile_flags {U : Uni} {al g : List Str} {b : List (Str × List Str)} {p : UrlPolicy} {r : List ((Str × Str) × UrlRule)} {dc ds rt : List Str} {tag : Str}
    {a : TagAction} (h : compileAction U al g b p r dc ds rt tag = some a) :
    a.void = voids.contains tag ∧ (a.simpleEnd = true → formatting.contains tag = false) ∧ (a.simpleStart = true → formatting.contains tag = false) ∧
      (a.allowed = true → al.contains tag = true) := by
  unfold compileAction at h
  split at h
  · cases h
  · cases h
    refine ⟨rfl, fun h => ?_, fun h => ?_, id⟩
    · simp only [Bool.and_eq_true, Bool.not_eq_true'] at h; exact h.1
    · simp only [Bool.and_eq_true, Bool.not_eq_true'] at h; grind

theorem safe_plan (E : UrlEnv) (T : EntTables) (fragment : Bool) (html : Str) (sc : Bool) : ∃ p : SafePolicy, (safeCfg E T fragment html c%"div" none sc).plan =
    compilePlan E.U p sc ∧ p.dropContentTags = [c%"script", c%"style"] := by
  cases fragment
  · exact ⟨defaultDocumentPolicy, rfl, rfl⟩
  · exact ⟨defaultPolicy, rfl, rfl⟩

theorem rawAsTextFor_own (sc : Bool) : ∀ x ∈ rawAsTextFor sc, x ∈ ownRules := by cases sc <;> decide
theorem scriptStyle_own : ∀ x ∈ [c%"script", c%"style"], x ∈ ownRules := by decide
theorem dropSubtree_own : ∀ x ∈ dropSubtreeTags, x ∈ ownRules := by decide

/-- A sanitizing parse of a fragment, or of a document. -/
theorem safeC_safe (E : UrlEnv) (T : EntTables) (fragment : Bool) (html : Str) (sc : Bool) : SafeC (safeCfg E T fragment html c%"div" none sc) := by
  obtain ⟨p, hp, hd⟩ := safe_plan E T fragment html sc
  have ha : (safeCfg E T fragment html c%"div" none sc).plan.action = compileAction E.U p.allowedTags p.global (p.byTag E.U) p.urlPolicy p.urlPolicy.rules
      p.dropContentTags dropSubtreeTags (rawAsTextFor sc) := by rw [hp]; rfl
  have hl : (safeCfg E T fragment html c%"div" none sc).plan.allowedTags = p.allowedTags := by rw [hp]; rfl
  refine ⟨by rw [hp]; rfl, rfl, rfl, by cases fragment; exact Or.inl rfl; exact Or.inr rfl, ?_, ?_, ?_, ?_, ?_⟩ <;> rw [ha]
  · intro name hn
    refine compile_tame hn ?_ ?_ ?_
    · rw [hd]; exact scriptStyle_own
    · exact dropSubtree_own
    · exact rawAsTextFor_own sc
  · intro name a h; exact (compile_flags h).1
  · intro name a h; exact (compile_flags h).2.1
  · intro name a h; exact (compile_flags h).2.2.1
  · intro name a h; rw [hl]; exact (compile_flags h).2.2.2

theorem defaultFor_mem {name key : Str} (h : ∃ p ∈ defaultPolicy.allowedAttributes, (p.1 = c%"*" ∨ p.1 = name) ∧ key ∈ p.2) (hn : name ∈ defaultTags) : key ∈ defaultFor name := by
  obtain ⟨p, h1, h2, h3⟩ := h
  have : ∀ name ∈ defaultTags, ∀ p ∈ defaultPolicy.allowedAttributes, p.1 = c%"*" ∨ p.1 = name → ∀ key ∈ p.2, key ∈ defaultFor name := by decide +kernel
  exact this name hn p h1 h2 key h3

theorem known {al dc ds rt : List Str} {name : Str} (h : name ∈ al) : name ∈ knownTags al dc ds rt := by
  unfold knownTags
  simp only [List.mem_append]
  simp [h]

theorem docTags_more {name : Str} (h : name ∈ defaultTags) : name ∈ defaultDocumentPolicy.allowedTags := List.mem_append_left _ h

/-- The action of an allowed name. -/
theorem plan_action (E : UrlEnv) (T : EntTables) (fragment : Bool) (html : Str) (sc : Bool) {name : Str}
    (hn : name ∈ (if fragment then defaultPolicy else defaultDocumentPolicy).allowedTags) :
    ∃ a, (safeCfg E T fragment html c%"div" none sc).plan.action name = some a ∧ a.allowed = true ∧ a.name = name ∧ a.allowedAttrs = defaultFor name ∧
      (a.scanAttrs = true) ∧ ∀ k ∈ defaultFor name, a.urlAttr k = urlAction E.U defaultUrls defaultUrls.rules name k := by
  obtain ⟨p, hpl, hp1, hp2, hp3, hp4⟩ : ∃ p : SafePolicy, (safeCfg E T fragment html c%"div" none sc).plan = compilePlan E.U p sc ∧
      p.allowedAttributes = defaultPolicy.allowedAttributes ∧ p.urlPolicy = defaultUrls ∧ p.allowedTags.contains name = true ∧
      (knownTags p.allowedTags p.dropContentTags dropSubtreeTags (rawAsTextFor sc)).contains name = true := by
    cases fragment with
    | true => exact ⟨defaultPolicy, rfl, rfl, rfl, List.contains_iff_mem.2 hn, List.contains_iff_mem.2 (known hn)⟩
    | false => exact ⟨defaultDocumentPolicy, rfl, rfl, rfl, List.contains_iff_mem.2 hn, List.contains_iff_mem.2 (known hn)⟩
  have hby : p.byTag E.U = defaultPolicy.byTag Uni.sample := by
    rw [← default_byTag E.U]; unfold SafePolicy.byTag SafePolicy.global; rw [hp1]
  have hgl : p.global = defaultPolicy.global := by unfold SafePolicy.global; rw [hp1]
  rw [hpl]
  simp only [compilePlan, compileAction]
  rw [hp4, hp3]
  simp only [hby, hgl, hp2, Bool.not_true, Bool.false_eq_true, if_false, if_true]
  refine ⟨_, rfl, rfl, rfl, rfl, ?_, fun k hk => ?_⟩
  · have : ∀ name ∈ defaultDocumentPolicy.allowedTags, (defaultFor name).isEmpty = false := by decide +kernel
    have := this name (by cases fragment; exact hn; exact docTags_more hn)
    unfold defaultFor at this
    simp [this]
  · exact if_pos (List.contains_iff_mem.2 hk)

theorem default_action (E : UrlEnv) (T : EntTables) (fragment : Bool) (html : Str) (sc : Bool) {name : Str} (hn : name ∈ defaultTags) :
    ∃ a, (safeCfg E T fragment html c%"div" none sc).plan.action name = some a ∧ a.allowed = true ∧ a.name = name ∧ a.allowedAttrs = defaultFor name ∧
      (a.scanAttrs = true) ∧ ∀ k ∈ defaultFor name, a.urlAttr k = urlAction E.U defaultUrls defaultUrls.rules name k :=
  plan_action E T fragment html sc (by cases fragment; exact docTags_more hn; exact hn)

theorem default_other (U : Uni) {name k : Str} (h1 : k ≠ c%"href") (h2 : k ≠ c%"src") : urlAction U defaultUrls defaultUrls.rules name k = none := by
  have : urlRuleFor { defaultUrls with rules := defaultUrls.rules } name k = none := by
    unfold urlRuleFor
    have : ∀ n : Str, ({ defaultUrls with rules := defaultUrls.rules } : UrlPolicy).rules.lookup (n, k) = none := by
      intro n
      rw [List.lookup_eq_none_iff]
      intro p hp
      have hp : p ∈ defaultUrls.rules := hp
      simp only [defaultUrls, List.mem_cons, List.not_mem_nil, or_false] at hp
      rcases hp with rfl | rfl
      · simp [h1]
      · simp [h2]
    rw [this, this]
  unfold urlAction
  rw [this]

/-- A harmless attribute keeps its value. -/
theorem harmless_keeps {C : Cfg} (hstrip : C.plan.stripInvisible = true) {a : TagAction} {name key v : Str} (hk : key ∈ defaultFor name)
    (hu : a.urlAttr key = urlAction C.E.U defaultUrls defaultUrls.rules name key) (hv : ShowsAll v)
    (h1 : key = c%"href" → PlainLink [c%"http", c%"https", c%"mailto", c%"tel"] v) (h2 : key = c%"src" → PlainLink [] v) : attrOut C a key v = some v := by
  unfold attrOut
  rw [hstrip, if_pos rfl, (strip_vis_iff v).mpr hv, hu]
  by_cases e1 : key = c%"href"
  · have hn := defaultFor_href (e1 ▸ hk)
    rw [hn, e1, default_href]
    dsimp only
    rw [plain_keeps C.E hrefRule rfl (h1 e1)]
  by_cases e2 : key = c%"src"
  · have hn := defaultFor_src (e2 ▸ hk)
    rw [hn, e2, default_src]
    dsimp only
    rw [plain_keeps C.E srcRule rfl (h2 e2)]
  rw [default_other _ e1 e2]

theorem harmless_spared (E : UrlEnv) (T : EntTables) (fragment : Bool) (html : Str) (sc : Bool) {name : Str} {as : Attrs} (hn : name ∈ defaultTags)
    (ha : HarmlessAttrs defaultAttrs [c%"http", c%"https", c%"mailto", c%"tel"] name as) (hg : GoodAttrs name as) :
    LeftAlone (safeCfg E T fragment html c%"div" none sc) name as := by
  obtain ⟨a, h1, h2, h3, h4, h5, h6⟩ := default_action E T fragment html sc hn
  refine ⟨a, h1, h2, fun _ => h5, fun p hp => ?_⟩
  have hk := defaultFor_mem (ha p hp).1 hn
  obtain ⟨v, hv, -⟩ := (hg.2 p hp).2
  obtain ⟨g1, g2, g3⟩ := (ha p hp).2 v hv
  exact ⟨h4 ▸ hk, v, hv, harmless_keeps (by cases fragment <;> rfl) hk (h6 _ hk) g1 g2 g3⟩

mutual
theorem every_harmless (E : UrlEnv) (T : EntTables) (fragment : Bool) (html : Str) (sc : Bool) : ∀ (n : Node) (anc : List Str), Good anc n →
    Harmless defaultTags defaultAttrs [c%"http", c%"https", c%"mailto", c%"tel"] n →
    Every (fun t => (safeCfg E T fragment html c%"div" none sc).plan.stripInvisible = true → stripInvisible t = t)
      (fun _ => (safeCfg E T fragment html c%"div" none sc).plan.dropComments = false) (LeftAlone (safeCfg E T fragment html c%"div" none sc)) n
  | .text t, _, _, h => by rw [Harmless] at h; rw [Every]; exact fun _ => (strip_vis_iff t).mpr h
  | .comment _, _, _, h => by rw [Harmless] at h; exact h.elim; all_goals simp
  | .pi _, _, _, h => by rw [Every]; trivial; all_goals simp
  | .doctype _ _ _, _, _, h => by rw [Every]; trivial; all_goals simp
  | .doc _, _, _, h => by rw [Every]; trivial; all_goals simp
  | .elem name ns attrs kids tpl content, anc, hg, h => by
    rw [Harmless] at h
    rw [Good] at hg
    rw [Every]
    exact ⟨harmless_spared E T fragment html sc h.1 h.2.1 hg.2.2.2.2.2.1, everyL_harmless E T fragment html sc kids _ hg.2.2.2.2.2.2.2.2 h.2.2⟩
theorem everyL_harmless (E : UrlEnv) (T : EntTables) (fragment : Bool) (html : Str) (sc : Bool) : ∀ (ns : List Node) (anc : List Str), GoodL anc ns →
    HarmlessL defaultTags defaultAttrs [c%"http", c%"https", c%"mailto", c%"tel"] ns →
    EveryL (fun t => (safeCfg E T fragment html c%"div" none sc).plan.stripInvisible = true → stripInvisible t = t)
      (fun _ => (safeCfg E T fragment html c%"div" none sc).plan.dropComments = false) (LeftAlone (safeCfg E T fragment html c%"div" none sc)) ns
  | [], _, _, _ => by rw [EveryL]; trivial
  | n :: ns, anc, hg, h => by
    rw [HarmlessL] at h
    rw [GoodL] at hg
    rw [EveryL]
    exact ⟨every_harmless E T fragment html sc n anc hg.1 h.1, everyL_harmless E T fragment html sc ns anc hg.2.2 h.2⟩
end

/-! ### The output does not begin with a byte order mark -/

theorem escapeText_head {t : Str} (ht : t ≠ []) : ∃ c r, escapeText t = c :: r ∧ (c ∈ t ∨ c = '&') := by
  rw [escapeText_eq]
  cases t with
  | nil => exact absurd rfl ht
  | cons a t =>
    rw [List.flatMap_cons]
    unfold esc1
    split
    · exact ⟨_, _, rfl, .inr rfl⟩
    · split
      · exact ⟨_, _, rfl, .inr rfl⟩
      · split
        · exact ⟨_, _, rfl, .inr rfl⟩
        · exact ⟨_, _, rfl, .inl (by simp)⟩

theorem bom_invisible : Invisible '\uFEFF' := by unfold Invisible; decide

theorem outL_noBom {forest : List Node} (hg : GoodL [] forest) (h : ∀ t r, forest = .text t :: r → ShowsAll t) : (outL forest).head? ≠ some '\uFEFF' := by
  cases forest with
  | nil => rw [outL]; simp
  | cons n ns =>
    rw [outL]
    rw [GoodL] at hg
    cases n with
    | text t =>
      rw [out]
      have ht : t ≠ [] := by have := hg.1; rw [Good] at this; exact this.1
      intro e
      obtain ⟨c, r, h1, h2⟩ := escapeText_head ht
      rw [h1] at e
      have e : c = '\uFEFF' := Option.some.inj e
      subst e
      rcases h2 with h2 | h2
      · exact h t ns rfl _ h2 bom_invisible
      · exact absurd h2 (by decide)
    | elem name ns' as kids tpl content => rw [out]; simp
    | comment d => rw [out]; simp
    | pi d => have := hg.1; rw [Good] at this; exact this.elim; all_goals simp
    | doctype a b c => have := hg.1; rw [Good] at this; exact this.elim; all_goals simp
    | doc k => have := hg.1; rw [Good] at this; exact this.elim; all_goals simp

/-- C82: a forest in which the elements are nested as the HTML standard asks, with only the tags, attributes and links of the default policy and nothing
invisible, is serialized without error, and `JustHTML(html, fragment=True)`, which sanitizes, gives back exactly this forest. -/
theorem C82_safe_fragment (E : UrlEnv) (T : EntTables) (sc : Bool) (forest : List Node) (hg : GoodL [] forest)
    (hh : HarmlessL defaultTags defaultAttrs [c%"http", c%"https", c%"mailto", c%"tel"] forest) :
    ∃ html, toHtmlCompact E.U none (.doc forest) = .ok html ∧ result (safeCfg E T true html c%"div" none sc) = .doc forest := by
  refine ⟨outL forest, good_html E.U hg, ?_⟩
  refine fragment_reads (safeC_safe E T true _ sc).reader rfl rfl ?_ hg (everyL_harmless E T true _ sc forest [] hg hh) (noBom (outL_noBom hg fun t r e => ?_))
  · cases sc <;> rfl
  · rw [e, HarmlessL] at hh; have := hh.1; rw [Harmless] at this; exact this

/-! ### What the default policy leaves, it leaves again -/

theorem attrOut_idem {C : Cfg} (hstrip : C.plan.stripInvisible = true) (hp : C.plan.urlPolicy = defaultUrls) {a : TagAction} {name key raw v : Str} (hk : key ∈ defaultFor name)
    (hu : a.urlAttr key = urlAction C.E.U defaultUrls defaultUrls.rules name key) (h : attrOut C a key raw = some v) : attrOut C a key v = some v ∧ ShowsAll v := by
  have url : ∀ rule : UrlRule, a.urlAttr key = some (.url, rule, some true) → rule.handling = some .allow → rule.allowFragment = true → effAllowRelative defaultUrls rule = true →
      (∀ r, rule.resolve = some r → SchemeName r) → attrOut C a key v = some v ∧ ShowsAll v := by
    intro rule hu hh hf har hr
    have he : effHandling defaultUrls rule = .allow := by unfold effHandling; rw [hh]; rfl
    unfold attrOut at h ⊢
    rw [hstrip, if_pos rfl, hu] at h ⊢
    dsimp only at h ⊢
    generalize stripInvisible raw = w at h
    cases hfw : fastUrl C.E rule true w with
    | some r =>
      rw [hfw] at h
      dsimp only at h
      subst h
      obtain ⟨h1, h2⟩ := fast_idem C.E rule hf hr hfw
      have hs : stripInvisible v = v := (strip_vis_iff v).mpr fun c hc hi => by
        have := (isAscii_iff c).mp (List.all_eq_true.mp h2 c hc)
        unfold Invisible at hi
        dsimp only at hi
        omega
      rw [hs, h1]
      exact ⟨rfl, (strip_vis_iff v).mp hs⟩
    | none =>
      rw [hfw] at h
      dsimp only at h
      unfold sinkValue sanitizeSimple at h ⊢
      rw [hp, he, har] at h ⊢
      obtain ⟨h1, h2, h3, -⟩ := url_idem C.E rule a.name key .allow true _ w v (by simp) hr h
      rw [h2]
      refine ⟨?_, (strip_vis_iff v).mp h2⟩
      by_cases hasc : v.all isAscii = true
      · have h1' := h1
        unfold sanitizeUrl at h1'
        dsimp only at h1'
        rw [h2, h3] at h1'
        rw [accept_fast C.E rule .allow (by simp) hr hf hasc h3 h1']
      · have : fastUrl C.E rule true v = none := by
          unfold fastUrl
          rw [if_pos]
          simpa using hasc
        rw [this]
        exact h1
  by_cases e1 : key = c%"href"
  · have hn := defaultFor_href (e1 ▸ hk)
    rw [hn, e1, default_href] at hu
    subst e1
    exact url hrefRule hu rfl rfl rfl hrefRule_resolve
  by_cases e2 : key = c%"src"
  · have hn := defaultFor_src (e2 ▸ hk)
    rw [hn, e2, default_src] at hu
    subst e2
    exact url srcRule hu rfl rfl rfl srcRule_resolve
  · unfold attrOut at h ⊢
    rw [hu, default_other _ e1 e2, hstrip, if_pos rfl] at h ⊢
    dsimp only at h ⊢
    cases h
    rw [C55_idempotent]
    exact ⟨rfl, C55_none_left raw⟩

theorem attrOut_congr {C D : Cfg} (h1 : C.plan = D.plan) (h2 : C.E = D.E) (a : TagAction) (key v : Str) : attrOut C a key v = attrOut D a key v := by
  unfold attrOut; rw [h1, h2]

theorem kept_leftAlone (E : UrlEnv) (T : EntTables) (input html : Str) (sc : Bool) {name : Str} {as : Attrs} (hn : name ∈ defaultTags)
    (ha : AttrsOk (safeCfg E T true input c%"div" none sc) name as) : LeftAlone (safeCfg E T true html c%"div" none sc) name as := by
  obtain ⟨a, h1, h2, h3, h4, h5, h6⟩ := default_action E T true html sc hn
  refine ⟨a, h1, h2, fun _ => h5, fun p hp => ?_⟩
  rcases ha with ⟨ha, -⟩ | ⟨-, ha | ⟨b, hb, hall⟩⟩
  · exact absurd ha (by simp [safeCfg, defaultPlan, compilePlan])
  · exact absurd hn ha
  · have : a = b := Option.some.inj (h1.symm.trans hb)
    subst this
    obtain ⟨k1, raw, v, k2, k3⟩ := hall p hp
    refine ⟨k1, v, k3, ?_⟩
    rw [h4] at k1
    rw [attrOut_congr (C := safeCfg E T true input c%"div" none sc) (D := safeCfg E T true html c%"div" none sc) rfl rfl] at k2
    have g1 : (safeCfg E T true html c%"div" none sc).plan.stripInvisible = true := rfl
    have g2 : (safeCfg E T true html c%"div" none sc).plan.urlPolicy = defaultUrls := rfl
    have g3 : (safeCfg E T true html c%"div" none sc).E = E := rfl
    have g4 := h6 _ k1
    clear h1 hb h6 hall
    rw [← g3] at g4
    generalize safeCfg E T true html c%"div" none sc = D at *
    exact (attrOut_idem g1 g2 k1 g4 k2).1

/-- What is known of a node of a sanitized tree. -/
def Left (E : UrlEnv) (T : EntTables) (input : Str) (sc : Bool) (n : Node) : Prop :=
  ((TagIn defaultPolicy.allowedTags n ∧ HtmlAttrs (safeCfg E T true input c%"div" none sc) n) ∧ NoComment n) ∧ TextVisible n

mutual
theorem every_left (E : UrlEnv) (T : EntTables) (input html : Str) (sc : Bool) : ∀ (n : Node), Everywhere (Left E T input sc) n →
    Every (fun t => (safeCfg E T true html c%"div" none sc).plan.stripInvisible = true → stripInvisible t = t)
      (fun _ => (safeCfg E T true html c%"div" none sc).plan.dropComments = false) (LeftAlone (safeCfg E T true html c%"div" none sc)) n
  | .text t, h => by rw [Every]; exact fun _ => (strip_vis_iff t).mpr h.2
  | .comment _, h => h.1.2.elim
  | .pi _, h => by rw [Every]; trivial; all_goals simp
  | .doctype _ _ _, h => by rw [Every]; trivial; all_goals simp
  | .doc _, h => by rw [Every]; trivial; all_goals simp
  | .elem name ns attrs kids tpl content, h => by
    rw [Everywhere] at h
    rw [Every]
    exact ⟨kept_leftAlone E T input html sc h.1.1.1.1.2 h.1.1.1.2.2.2, everyL_left E T input html sc kids h.2.1⟩
theorem everyL_left (E : UrlEnv) (T : EntTables) (input html : Str) (sc : Bool) : ∀ (ns : List Node), EverywhereL (Left E T input sc) ns →
    EveryL (fun t => (safeCfg E T true html c%"div" none sc).plan.stripInvisible = true → stripInvisible t = t)
      (fun _ => (safeCfg E T true html c%"div" none sc).plan.dropComments = false) (LeftAlone (safeCfg E T true html c%"div" none sc)) ns
  | [], _ => by rw [EveryL]; trivial
  | n :: ns, h => by
    rw [EverywhereL] at h
    rw [EveryL]
    exact ⟨every_left E T input html sc n h.1, everyL_left E T input html sc ns h.2⟩
end

/-- The texts of a sanitized tree. -/
theorem safe_texts (E : UrlEnv) (T : EntTables) (fragment : Bool) (input ctx : Str) (ctxNs : Option Str) (sc : Bool) (hnf : NoTag E.U c%"noframes" input) :
    Everywhere TextVisible (result (safeCfg E T fragment input ctx ctxNs sc)) := by
  unfold result
  refine treeF_all (fun c hc => absurd hc (by simp)) (fun i kids tpl content => ?_) _ _
  have h := run_texts (C := safeCfg E T fragment input ctx ctxNs sc) i
  have hn : ¬ Named (safeCfg E T fragment input ctx ctxNs sc) c%"noframes" :=
    not_named (noTag_dropBom hnf) (by decide +kernel) (by decide +kernel) (by decide +kernel)
  generalize (run (safeCfg E T fragment input ctx ctxNs sc)).n i = n at h
  unfold shown
  unfold TextOk at h
  cases hk : n.kind <;> first | trivial | skip
  rcases (h hk).out (by cases fragment <;> rfl) with h | h
  · exact absurd h hn
  · exact h

/-- C82: whatever the input, if the tree that `JustHTML(input, fragment=True)` made of it is nested as the HTML standard asks, then writing it and parsing it
again with the default policy changes nothing. (The input has none of the tags for which the policy fails.) -/
theorem C82_stable (E : UrlEnv) (T : EntTables) (sc : Bool) (input : Str) (forest : List Node)
    (hno : ∀ x ∈ [c%"selectedcontent", c%"svg", c%"math", c%"noframes"], NoTag E.U x input)
    (hr : result (safeCfg E T true input c%"div" none sc) = .doc forest) (hg : GoodL [] forest) :
    ∃ html, toHtmlCompact E.U none (.doc forest) = .ok html ∧ result (safeCfg E T true html c%"div" none sc) = .doc forest := by
  have h1 := C75_fragment_partial E T input c%"div" none sc (hno _ (by simp)) (.inl rfl)
  have h2 := fragment_attrs E T input c%"div" none sc (hno _ (by simp)) (hno _ (by simp)) (.inl rfl)
  have h3 := C77_no_comments E T true input c%"div" none sc
  have h4 := safe_texts E T true input c%"div" none sc (hno _ (by simp))
  have hall := everywhere_and _ (everywhere_and _ (everywhere_and _ h1 h2) h3) h4
  rw [hr, Everywhere] at hall
  refine ⟨outL forest, good_html E.U hg, ?_⟩
  refine fragment_reads (safeC_safe E T true _ sc).reader rfl rfl ?_ hg (everyL_left E T input _ sc forest hall.2) (noBom (outL_noBom hg fun t r e => ?_))
  · cases sc <;> rfl
  · have := hall.2
    rw [e, EverywhereL] at this
    exact this.1.2

/-! ### Such forests -/

instance (c : Char) : Decidable (Invisible c) := by unfold Invisible; infer_instance
instance (t : Str) : Decidable (ShowsAll t) := by unfold ShowsAll; infer_instance

/-- `PlainLink`, as a computation. -/
def plainLinkB (schemes : List Str) (v : Str) : Bool :=
  !v.isEmpty && (v.all fun c => '!' ≤ c && c ≤ '~' && c ≠ '\\') && (match browserScheme v with | none => true | some sc => schemes.contains sc) && !networkPath v

theorem plainLinkB_of {schemes : List Str} {v : Str} (h : plainLinkB schemes v = true) : PlainLink schemes v := by
  simp only [plainLinkB, Bool.and_eq_true, Bool.not_eq_true', List.isEmpty_eq_false_iff, List.all_eq_true, decide_eq_true_eq] at h
  obtain ⟨⟨⟨h1, h2⟩, h3⟩, h4⟩ := h
  refine ⟨h1, fun c hc => ⟨(h2 c hc).1.1, (h2 c hc).1.2, (h2 c hc).2⟩, fun sc hsc => ?_, h4⟩
  rw [hsc] at h3
  exact List.contains_iff_mem.1 h3

mutual
/-- `Harmless`, as a computation. -/
def harmlessB (tags : List Str) (table : List (Str × List Str)) (schemes : List Str) : Node → Bool
  | .text t => decide (ShowsAll t)
  | .elem name _ attrs kids _ _ => tags.contains name && (attrs.all fun a => (table.any fun p => (p.1 = c%"*" || p.1 = name) && p.2.contains a.1) &&
      (match a.2 with | none => true | some v => decide (ShowsAll v) && (a.1 ≠ c%"href" || plainLinkB schemes v) && (a.1 ≠ c%"src" || plainLinkB [] v))) &&
    harmlessLB tags table schemes kids
  | _ => false
/-- `HarmlessL`, as a computation. -/
def harmlessLB (tags : List Str) (table : List (Str × List Str)) (schemes : List Str) : List Node → Bool
  | [] => true
  | n :: ns => harmlessB tags table schemes n && harmlessLB tags table schemes ns
end

mutual
theorem harmlessB_of {tags : List Str} {table : List (Str × List Str)} {schemes : List Str} : ∀ n, harmlessB tags table schemes n = true → Harmless tags table schemes n
  | .text t, h => by rw [Harmless]; simpa [harmlessB] using h
  | .comment _, h => by simp [harmlessB] at h
  | .pi _, h => by simp [harmlessB] at h
  | .doctype _ _ _, h => by simp [harmlessB] at h
  | .doc _, h => by simp [harmlessB] at h
  | .elem name ns attrs kids tpl content, h => by
    simp only [harmlessB, Bool.and_eq_true, List.all_eq_true, List.any_eq_true, Bool.or_eq_true, decide_eq_true_eq] at h
    rw [Harmless]
    refine ⟨List.contains_iff_mem.1 h.1.1, fun a ha => ?_, harmlessLB_of kids h.2⟩
    obtain ⟨⟨p, h1, h2, h3⟩, h4⟩ := h.1.2 a ha
    refine ⟨⟨p, h1, h2, List.contains_iff_mem.1 h3⟩, fun v hv => ?_⟩
    rw [hv] at h4
    simp only [Bool.and_eq_true, decide_eq_true_eq, Bool.or_eq_true] at h4
    exact ⟨h4.1.1, fun e => plainLinkB_of (h4.1.2.resolve_left fun g => g e), fun e => plainLinkB_of (h4.2.resolve_left fun g => g e)⟩
theorem harmlessLB_of {tags : List Str} {table : List (Str × List Str)} {schemes : List Str} : ∀ ns, harmlessLB tags table schemes ns = true → HarmlessL tags table schemes ns
  | [], _ => by rw [HarmlessL]; trivial
  | n :: ns, h => by
    simp only [harmlessLB, Bool.and_eq_true] at h
    rw [HarmlessL]
    exact ⟨harmlessB_of n h.1, harmlessLB_of ns h.2⟩
end

/-- A paragraph, a list with links in it, and an image. -/
def safeSample : List Node :=
  [el c%"p" [] [.text c%"1 < 2 & ", el c%"b" [] [el c%"i" [] [.text c%"3"]], el c%"br" [] []],
   el c%"ul" [(c%"class", some c%"x y")] [el c%"li" [] [el c%"a" [(c%"href", some c%"/?a=1&b=\"2\"")] [.text c%"link"]],
     el c%"li" [] [el c%"a" [(c%"href", some c%"mailto:a@b"), (c%"title", some c%" é ")] []]],
   el c%"img" [(c%"src", some c%"pic.png")] [], .text c%"\nend"]

example : GoodL [] safeSample ∧ HarmlessL defaultTags defaultAttrs [c%"http", c%"https", c%"mailto", c%"tel"] safeSample :=
  ⟨goodLB_of _ _ (by decide +kernel), harmlessLB_of _ (by decide +kernel)⟩

/-- Markup with a handler, a script, a bad link, a comment and a zero-width space. -/
def messy : Str := c%"<p onclick=x>1 &lt; 2 <b><script>evil()</script>bo\u200bld <!-- c --><ul CLASS=q><li>one<li><a href='javascript:x'>two</a> <a href='  /three'>three</a>"

/-- The children of a document. -/
def kidsOf : Node → List Node
  | .doc kids => kids
  | _ => []

/-- The hypotheses of `C82_stable` are met by a parse that changes a lot: its tree is in order, and writing it and parsing it again changes nothing. -/
example : ∃ forest html, result (safeCfg UrlEnv.sample EntTables.sample true messy c%"div" none true) = .doc forest ∧ GoodL [] forest ∧
    toHtmlCompact UrlEnv.sample.U none (.doc forest) = .ok html ∧ result (safeCfg UrlEnv.sample EntTables.sample true html c%"div" none true) = .doc forest := by
  have h1 : (match result (safeCfg UrlEnv.sample EntTables.sample true messy c%"div" none true) with | .doc _ => true | _ => false) = true := by decide +kernel
  have h2 : goodLB [] (kidsOf (result (safeCfg UrlEnv.sample EntTables.sample true messy c%"div" none true))) = true := by with_unfolding_all decide +kernel
  have hno : ∀ x ∈ [c%"selectedcontent", c%"svg", c%"math", c%"noframes"], NoTag UrlEnv.sample.U x messy := by
    intro x hx
    simp only [List.mem_cons, List.not_mem_nil, or_false] at hx
    rcases hx with rfl | rfl | rfl | rfl <;> exact noTag_of (fun _ => rfl) (by decide +kernel)
  have hst := C82_stable UrlEnv.sample EntTables.sample true messy
  generalize result (safeCfg UrlEnv.sample EntTables.sample true messy c%"div" none true) = r at h1 h2 hst
  cases r with
  | doc forest =>
    obtain ⟨html, h3, h4⟩ := hst forest hno rfl (goodLB_of _ _ h2)
    exact ⟨forest, html, rfl, goodLB_of _ _ h2, h3, h4⟩
  | _ => cases h1

end JH.Eng.Props
