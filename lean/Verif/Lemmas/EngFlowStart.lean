import Verif.Lemmas.EngFlowText

/-! Start tags in ordinary content (C81). -/
namespace JH.Eng
open JH.Spec

variable {C : Cfg} {anc : List Str} {s : St}

/-! ### Chains of tests -/

theorem chainR_next {m : EM (Option Str)} {l : List (EM (Option Str))} {s' : St} (h : m C s = (none, s')) : chainR (m :: l) C s = chainR l C s' := by
  rw [chainR, bind_eq, h]

theorem chainR_done {m : EM (Option Str)} {l : List (EM (Option Str))} {r : Str} {s' : St} (h : m C s = (some r, s')) :
    chainR (m :: l) C s = (some r, s') := by
  rw [chainR, bind_eq, h]
  rfl

theorem retIf_neg {pos : Str} {c : Cfg → St → Bool} {m : EM Unit} (h : c C s = false) : retIf pos c m C s = (none, s) := iteQ_neg h

theorem retIf_pos {pos : Str} {c : Cfg → St → Bool} {m : EM Unit} (h : c C s = true) {s' : St} (hm : m C s = ((), s')) :
    retIf pos c m C s = (some pos, s') := by
  refine (iteQ_pos h).trans ?_
  rw [bind_eq, hm]
  rfl

theorem retWith_neg {c : Cfg → St → Bool} {m : EM Str} (h : c C s = false) : retWith c m C s = (none, s) := iteQ_neg h

theorem retOk_neg {pos : Str} {c : Cfg → St → Bool} {m : EM Bool} (h : c C s = false) : retOk pos c m C s = (none, s) := iteQ_neg h

theorem retOk_false {pos : Str} {c : Cfg → St → Bool} {m : EM Bool} (hm : m C s = (false, s)) : retOk pos c m C s = (none, s) := by
  unfold retOk iteQ
  split
  · rw [bind_eq, hm]; rfl
  · rfl

theorem goIf_neg {c : Cfg → St → Bool} {m : EM Unit} (h : c C s = false) : goIf c m C s = (none, s) := by
  unfold goIf
  rw [bind_eq, whQ_neg h]
  rfl

theorem goIf_same {c : Cfg → St → Bool} {m : EM Unit} (hm : m C s = ((), s)) : goIf c m C s = (none, s) := by
  unfold goIf
  have e : whQ c m C s = ((), s) := by
    unfold whQ
    split
    · exact hm
    · rfl
  rw [bind_eq, e]
  rfl

theorem bind_val {α β : Type} {m : EM α} {k : α → EM β} {a : α} {s' : St} (h : m C s = (a, s')) : (m >>= k) C s = k a C s' := by
  rw [bind_eq, h]

theorem whQ_same {c : Cfg → St → Bool} {m : EM Unit} (hm : m C s = ((), s)) : whQ c m C s = ((), s) := by
  unfold whQ
  split
  · exact hm
  · rfl

/-! ### What is known about the name -/

/-- The configuration of an unsanitized parse. -/
structure RawC (C : Cfg) : Prop where
  raw : C.plan.rawMode = true
  act : C.plan.action = compileAction C.E.U rawAllowed [] [] defaultUrls [] [] [] []
  els : ∀ x ∈ C.plan.rawtextElementTags, x ∈ ownRules
  spans : C.spans = false
  locs : C.locs = false
  ctx : C.ctxName = none ∨ C.ctxName = some c%"div"
  comments : C.plan.dropComments = false
  strip : C.plan.stripInvisible = false

/-- The flags of a tag whose name has no rules of its own. -/
structure Tame (name : Str) (a : Option TagAction) : Prop where
  head : flag a (·.headContent) = false
  rawText : flag a (·.rawtextAsText) = false
  rcdata : flag a (·.rcdata) = false
  plaintext : flag a (·.plaintext) = false
  lf : flag a (·.preLinefeed) = false
  section' : flag a (·.tableSection) = false
  cell : flag a (·.tableCell) = false
  drop : flag a (·.dropContent) = false
  subtree : flag a (·.dropSubtree) = false
  fmt : isFmt a = formatting.contains name
  p : flag a (·.pClosing) = pClosing.contains name

theorem compile_some {U : Uni} {al g : List Str} {b : List (Str × List Str)} {p : UrlPolicy} {r : List ((Str × Str) × UrlRule)} {dc ds rt : List Str} {tag : Str}
    {a : TagAction} (h : compileAction U al g b p r dc ds rt tag = some a) :
    a.name = tag ∧ a.headContent = headContent.contains tag ∧ a.rawtextAsText = rt.contains tag ∧ a.rcdata = JH.Eng.rcdata.contains tag ∧
      a.plaintext = plaintextTags.contains tag ∧ a.preLinefeed = preLf.contains tag ∧ a.tableSection = tableSections.contains tag ∧
      a.tableCell = tableCells.contains tag ∧ a.dropContent = dc.contains tag ∧ a.dropSubtree = ds.contains tag ∧
      a.activeFormatting = formatting.contains tag ∧ a.pClosing = pClosing.contains tag := by
  unfold compileAction at h
  split at h
  · cases h
  · cases h
    exact ⟨rfl, rfl, rfl, rfl, rfl, rfl, rfl, rfl, rfl, rfl, rfl, rfl⟩

theorem compile_none {U : Uni} {al g : List Str} {b : List (Str × List Str)} {p : UrlPolicy} {r : List ((Str × Str) × UrlRule)} {dc ds rt : List Str} {tag : Str}
    (h : compileAction U al g b p r dc ds rt tag = none) : tag ∉ formatting ∧ tag ∉ pClosing := by
  unfold compileAction at h
  split at h
  · rename_i hn
    simp only [knownTags, Bool.not_eq_true', List.contains_eq_mem, decide_eq_false_iff_not, List.mem_append, not_or] at hn
    grind
  · cases h

theorem contains_false {l : List Str} {x : Str} (h : x ∉ l) : l.contains x = false := by simpa using h

theorem sub_own {l : List Str} (hl : ∀ x ∈ l, x ∈ ownRules) {x : Str} (h : x ∉ ownRules) : l.contains x = false :=
  contains_false fun hx => h (hl x hx)

theorem compile_tame {U : Uni} {al g : List Str} {b : List (Str × List Str)} {p : UrlPolicy} {r : List ((Str × Str) × UrlRule)} {dc ds rt : List Str}
    {name : Str} (hn : name ∉ ownRules) (h1 : ∀ x ∈ dc, x ∈ ownRules) (h2 : ∀ x ∈ ds, x ∈ ownRules) (h3 : ∀ x ∈ rt, x ∈ ownRules) :
    Tame name (compileAction U al g b p r dc ds rt name) := by
  cases ha : compileAction U al g b p r dc ds rt name with
  | none =>
    obtain ⟨f1, f2⟩ := compile_none ha
    exact ⟨rfl, rfl, rfl, rfl, rfl, rfl, rfl, rfl, rfl, (contains_false f1).symm, (contains_false f2).symm⟩
  | some a =>
    obtain ⟨_, e1, e2, e3, e4, e5, e6, e7, e8, e9, e10, e11⟩ := compile_some ha
    refine ⟨?_, ?_, ?_, ?_, ?_, ?_, ?_, ?_, ?_, e10, e11⟩
    · exact e1.trans (sub_own (by decide) hn)
    · exact e2.trans (sub_own h3 hn)
    · exact e3.trans (sub_own (by decide) hn)
    · exact e4.trans (sub_own (by decide) hn)
    · exact e5.trans (sub_own (by decide) hn)
    · exact e6.trans (sub_own (by decide) hn)
    · exact e7.trans (sub_own (by decide) hn)
    · exact e8.trans (sub_own h1 hn)
    · exact e9.trans (sub_own h2 hn)

theorem RawC.tame (hC : RawC C) {name : Str} (hn : name ∉ ownRules) : Tame name (C.plan.action name) := by
  rw [hC.act]
  exact compile_tame hn (by simp) (by simp) (by simp)

/-- A name without own rules is not one of these. -/
theorem own_ne {name : Str} (hn : name ∉ ownRules) {x : Str} (hx : x ∈ ownRules) : name ≠ x := fun e => hn (e ▸ hx)

/-! ### Small steps that do nothing -/

theorem flow_inTemplateScope (h : Flow C anc s) {x : Str} (hx : x ∈ ownRules) (h2 : x ≠ c%"html") (h3 : x ≠ c%"body") : s.inTemplateScope x = none := by
  unfold St.inTemplateScope
  rw [h.findOpen hx h2 h3]

theorem flow_finishReentry (h : Flow C anc s) : finishReentry C s = ((), s) := by
  unfold Eng.finishReentry
  rw [q_bind, h.reentry]
  rfl

theorem flow_reconIfDirty (h : Flow C anc s) : ∃ d, reconIfDirty C s = ((), { s with fmtDirty := d }) := by
  unfold Eng.reconIfDirty
  by_cases hd : s.fmtDirty = true
  · exact ⟨false, by rw [whQ_pos hd, h.reconstruct]⟩
  · exact ⟨s.fmtDirty, by rw [whQ_neg (by simpa using hd)]⟩

theorem flow_startColgroup (h : Flow C anc s) (t : Tag) (ht : t.name ≠ c%"colgroup") : startColgroup t C s = ((), s) := by
  unfold Eng.startColgroup
  rw [if_neg ht, whQ_neg (by rw [h.colgroup]; rfl)]

theorem flow_startNoscript (h : Flow C anc s) (t : Tag) : startNoscript t C s = (none, s) := iteQ_neg h.noscript

theorem flow_startBeforeBody (h : Flow C anc s) (t : Tag) (ht : t.name ≠ c%"template") (hf : C.fragment = false) : startBeforeBody t C s = ((), s) := by
  unfold Eng.startBeforeBody
  refine (bind_val (whQ_neg (by simp [ht]))).trans ?_
  exact whQ_neg (by simp [(h.shell hf).1])

theorem Flow.blocked (h : Flow C anc s) (b : Bool) : Flow C anc { s with framesetBlocked := b } :=
  ⟨h.names, h.nodes, h.anc, h.nodup, h.fmt, h.retired, h.tmodes, h.po, h.mFrameset, h.mColgroup, h.mNoscript, h.mAfter, h.mParserTpl, h.mTpl, h.after,
    h.frameset, h.colgroup, h.noscript, h.reentry, h.foreignSeen, h.selected, h.ctx, h.quirks, h.lf, h.nohead, h.shell⟩

theorem flow_blockFrameset (a : Option TagAction) (attrs : Attrs) (c : Cfg → St → Bool) :
    ∃ b, goIf c (do let U ← q fun C _ => C.E.U; blockFrameset U a attrs) C s = (none, { s with framesetBlocked := b }) := by
  by_cases hc : c C s = true
  · by_cases hb : flag a (fun a => a.name ≠ c%"input" || !hiddenInput C.E.U a.name attrs) = true
    · refine ⟨true, ?_⟩
      unfold goIf
      rw [bind_eq, whQ_pos hc, q_bind]
      unfold blockFrameset
      rw [whQ_pos hb]
      rfl
    · refine ⟨s.framesetBlocked, ?_⟩
      unfold goIf
      rw [bind_eq, whQ_pos hc, q_bind]
      unfold blockFrameset
      rw [whQ_neg (by simpa using hb)]
      rfl
  · exact ⟨s.framesetBlocked, goIf_neg (by simpa using hc)⟩

/-! ### The tests before the general rule -/

theorem flow_tests1 (h : Flow C anc s) (t : Tag) (hn : t.name ∉ ownRules) (hf : t.foreign = false) :
    ∃ b, chainR (startTests1 t) C s = (none, { s with framesetBlocked := b }) := by
  have hne : ∀ x ∈ ownRules, t.name ≠ x := fun x hx => own_ne hn hx
  obtain ⟨b, hb⟩ := flow_blockFrameset (C := C) (s := s) t.a t.attrs
    (fun C s => s.tmodes.isEmpty && !C.fragment && !s.framesetSeen && flag t.a (·.blocksFrameset))
  refine ⟨b, ?_⟩
  unfold startTests1
  rw [chainR_next (retIf_neg (by simp [hf]))]
  rw [chainR_next (goIf_neg (by simp [h.after]))]
  rw [chainR_next (retIf_neg (by simp [hne c%"html" (by decide)]))]
  rw [chainR_next (goIf_same (flow_startColgroup h t (hne c%"colgroup" (by decide))))]
  rw [chainR_next (flow_startNoscript h t)]
  rw [chainR_next (retIf_neg (by simp [hne c%"html" (by decide)]))]
  rw [chainR_next (retIf_neg (by simp [hne c%"head" (by decide)]))]
  rw [chainR_next (retIf_neg (by simp [hne c%"body" (by decide)]))]
  have e9 : goIf (inDoc t) (startBeforeBody t) C s = (none, s) := by
    cases hfr : C.fragment with
    | true => exact goIf_neg (by simp [inDoc, hfr])
    | false => exact goIf_same (flow_startBeforeBody h t (hne c%"template" (by decide)) hfr)
  rw [chainR_next e9]
  rw [chainR_next (goIf_neg (by
    have := h.notHead
    unfold inDoc
    cases hfr : C.fragment <;> simp_all))]
  rw [chainR_next (goIf_neg (by
    have := h.notHtml
    unfold inDoc
    cases hfr : C.fragment <;> simp_all))]
  rw [chainR_next hb]
  rfl

theorem flow_fragmentStart (hctx : C.ctxName = none ∨ C.ctxName = some c%"div") (name : Str) (attrs : Attrs) (sc : Bool) (hn : name ∉ ownRules) :
    retOk pos (fun C _ => true && C.ctxName.isSome) (fragmentStart name attrs sc) C s = (none, s) := by
  rcases hctx with hc | hc
  · exact retOk_neg (by rw [hc]; rfl)
  · refine retOk_false ?_
    unfold Eng.fragmentStart
    rw [q_bind, hc]
    have : [c%"html", c%"head", c%"body", c%"frameset"].contains name = false := sub_own (by decide) hn
    rw [this]
    rfl

theorem flow_startRuby (t : Tag) (hn : t.name ∉ ownRules) : startRuby t C s = ((), s) := by
  unfold Eng.startRuby
  refine whQ_same ?_
  have hne : ∀ x ∈ ownRules, t.name ≠ x := fun x hx => own_ne hn hx
  rw [if_neg (by simp [hne c%"rb" (by decide), hne c%"rtc" (by decide)]), if_neg (by simp [hne c%"rp" (by decide), hne c%"rt" (by decide)])]
  rfl

theorem flow_tests2 (hC : RawC C) (h : Flow C anc s) (t : Tag) (hn : t.name ∉ ownRules) (hht : t.ht = true) (ha : Tame t.name t.a) (hal : t.allowed = true) {s' : St}
    (hm : (if formatting.contains t.name then formattingStart t.name t.attrs false else startGeneral t) C s = ((), s')) :
    chainR (startTests2 t) C s = (some t.pos, s') := by
  have hne : ∀ x ∈ ownRules, t.name ≠ x := fun x hx => own_ne hn hx
  have hsel : s.findOpenHtml c%"select" = none := h.findOpenHtml (by decide) (by decide) (by decide)
  have hsel' : s.findOpen c%"select" = none := h.findOpen (by decide) (by decide) (by decide)
  have htm : s.tmode = none := by unfold St.tmode; rw [h.tmodes]; rfl
  have hraw : C.plan.rawtextElementTags.contains t.name = false := sub_own hC.els hn
  unfold startTests2
  rw [chainR_next (retIf_neg (by simp [hne c%"input" (by decide)]))]
  rw [chainR_next (retIf_neg (by simp [hne c%"frame" (by decide)]))]
  rw [chainR_next (retIf_neg (by simp [hne c%"html" (by decide), hne c%"head" (by decide), hne c%"body" (by decide), hne c%"frameset" (by decide)]))]
  rw [chainR_next (retOk_neg (by simp [hne c%"frameset" (by decide)]))]
  rw [chainR_next (retOk_neg (by simp [hne c%"frameset" (by decide)]))]
  rw [chainR_next (show startInFrameset t C s = (none, s) from iteQ_neg (by rw [h.frameset]; rfl))]
  rw [chainR_next (retIf_neg (by simp [hne c%"frame" (by decide), hne c%"frameset" (by decide)]))]
  rw [chainR_next (retIf_neg (by rw [hsel]; simp [bothLt]))]
  rw [chainR_next (retIf_neg (by rw [hsel]; simp))]
  rw [chainR_next (goIf_neg (by rw [hsel]; simp))]
  rw [chainR_next (goIf_neg (by rw [htm]; simp))]
  rw [chainR_next (retOk_neg (by rw [htm]; simp))]
  rw [chainR_next (retIf_neg (by rw [hsel]; simp))]
  rw [chainR_next (retIf_neg (by simp [hne c%"form" (by decide)]))]
  rw [chainR_next (retWith_neg (by rw [hraw]; simp))]
  rw [chainR_next (retWith_neg (by rw [hC.raw]; rfl))]
  rw [chainR_next (retWith_neg ha.rawText)]
  rw [chainR_next (retIf_neg (by simp [hne c%"noscript" (by decide)]))]
  rw [chainR_next (retWith_neg (by rw [ha.rcdata]; simp))]
  rw [chainR_next (retWith_neg (by rw [ha.plaintext]; simp))]
  rw [chainR_next (retWith_neg (by rw [ha.plaintext]; simp))]
  rw [hht, chainR_next (flow_fragmentStart hC.ctx t.name t.attrs t.sc hn)]
  rw [chainR_next (retIf_neg (by simp [hne c%"template" (by decide)]))]
  rw [chainR_next (retOk_neg (by simp [h.tmodes]))]
  rw [chainR_next (goIf_neg (by simp [hne c%"button" (by decide)]))]
  rw [chainR_next (retIf_neg (by simp [hne c%"button" (by decide)]))]
  by_cases hf : formatting.contains t.name = true
  · rw [if_pos hf] at hm
    exact chainR_done (retIf_pos (by rw [ha.fmt, hf]; rfl) hm)
  · rw [if_neg hf] at hm
    rw [chainR_next (retIf_neg (by rw [ha.fmt]; simp at hf; simp [hf]))]
    rw [chainR_next (goIf_neg (by simp [hne c%"menuitem" (by decide)]))]
    rw [chainR_next (goIf_neg (by rw [hsel']; simp))]
    rw [chainR_next (goIf_neg (by simp [hne c%"option" (by decide), hne c%"optgroup" (by decide)]))]
    rw [chainR_next (retIf_neg (by simp [hne c%"td" (by decide), hne c%"th" (by decide), hne c%"tr" (by decide)]))]
    rw [chainR_next (goIf_same (flow_startRuby t hn))]
    exact chainR_done (retIf_pos rfl hm)

/-! ### The general rule -/

theorem flow_insertEl (hC : RawC C) (h : Flow C anc s) {name : Str} (hn : name ∉ ownRules) (attrs : Attrs) (sc : Bool) :
    insertEl name attrs sc s.top C s = (s.heap.length,
      if htmlVoids.contains name then s.child (elementNode name attrs (some c%"html"))
      else { s.child (elementNode name attrs (some c%"html")) with stack := s.stack ++ [s.heap.length] }) := by
  have hne : ∀ x ∈ ownRules, name ≠ x := fun x hx => own_ne hn hx
  have ens : nsForStart name attrs C s = (c%"html", s) := by
    unfold nsForStart
    refine (iteQ_neg (by rw [h.topOpen]; rfl)).trans ?_
    unfold nsOfStart
    rw [if_neg (hne c%"svg" (by decide)), if_neg (hne c%"math" (by decide))]
    rfl
  unfold insertEl
  refine (bind_val ens).trans ?_
  have eel : elName c%"html" name = name := rfl
  rw [eel, q_bind, q_bind]
  have eat : startAttrs C name c%"html" attrs = attrs := by
    unfold startAttrs
    rw [hC.raw]
    rfl
  rw [eat]
  have epa : (if (!isHtmlNs (s.n s.top).ns && !s.stack.contains s.top) = true then s.curParent else s.top) = s.top := by
    rw [h.topHtml]; rfl
  rw [epa]
  have epl : placeEl name attrs c%"html" s.top C s = (s.heap.length, s.child (elementNode name attrs (some c%"html"))) := by
    unfold placeEl
    have e1 : newElement name attrs c%"html" C s = (s.heap.length, s.add (elementNode name attrs (some c%"html"))) := by
      unfold newElement
      refine (iteQ_neg (by simp [hne c%"template" (by decide)])).trans rfl
    refine (bind_val e1).trans ?_
    refine (bind_val (whQ_neg (by simp [hne c%"selectedcontent" (by decide)]))).trans ?_
    rw [q_bind]
    have e2 : fosterTargets.contains ((s.add (elementNode name attrs (some c%"html"))).n s.top).name = false := by
      rw [n_add_lt _ _ h.top_lt]; exact foster_top h
    rw [e2]
    refine (bind_val (show _ = ((), s.child (elementNode name attrs (some c%"html"))) from ?_)).trans ?_
    · have ho : (s.add (elementNode name attrs (some c%"html"))).older s.top s.heap.length = s.top := if_pos h.top_lt
      refine Prod.ext rfl ?_
      show St.linkLast _ (St.older _ _ _) _ = _
      rw [ho]; rfl
    refine (bind_val (whQ_neg (by rw [hC.raw]; rfl))).trans rfl
  refine (bind_val epl).trans ?_
  have eop : openEl name c%"html" sc s.heap.length C (s.child (elementNode name attrs (some c%"html"))) = ((),
      if htmlVoids.contains name then s.child (elementNode name attrs (some c%"html"))
      else { s.child (elementNode name attrs (some c%"html")) with stack := s.stack ++ [s.heap.length] }) := by
    unfold openEl
    by_cases hv : htmlVoids.contains name = true
    · rw [if_pos hv]
      exact whQ_neg (by simpa using hv)
    · rw [if_neg hv]
      refine (whQ_pos (by simpa using hv)).trans ?_
      refine (bind_val (show push s.heap.length C (s.child (elementNode name attrs (some c%"html"))) =
        ((), { s.child (elementNode name attrs (some c%"html")) with stack := s.stack ++ [s.heap.length] }) from rfl)).trans ?_
      refine (bind_val (whQ_neg (by simp [hne c%"template" (by decide)]))).trans ?_
      refine whQ_neg ?_
      have h1 : tableCells.contains name = false := sub_own (by decide) hn
      have h2 : markerTags.contains name = false := sub_own (by decide) hn
      rw [h1, h2]
      rfl
  refine (bind_val eop).trans rfl

theorem own_mem_ne {name : Str} (hn : name ∉ ownRules) (l : List Str) (hl : ∀ x ∈ l, x ∈ ownRules) : name ∉ l := fun h => hn (hl _ h)

theorem Flow.noP (h : Flow C anc s) (hp : c%"p" ∉ anc) {i : Nat} (hi : i ∈ s.stack) : (s.n i).name ≠ c%"p" := h.not_open hi hp (by decide)

theorem Flow.top_head {x : Str} (h : Flow C anc s) (hx : x ∈ anc.head?) : (s.n s.top).name = x := by
  cases anc with
  | nil => simp at hx
  | cons p l => simp at hx; subst hx; exact h.topName_cons

/-- Nothing has to be closed before this element. -/
theorem flow_repairStack (h : Flow C anc s) {name : Str} (hn : name ∉ ownRules) (hm : MayNest anc name) : repairStack name C s = ((), s) := by
  obtain ⟨m1, m2, m3, m4, -, -⟩ := hm
  have hne : ∀ x ∈ ownRules, name ≠ x := fun x hx => own_ne hn hx
  unfold Eng.repairStack
  have e1 : whQ (fun C s => pClosing.contains name && !(name = c%"table" && s.quirks = .quirks) && (s.inScope C.E.U c%"p" pScope).isSome)
    (closeBefore' c%"p" pScope) C s = ((), s) := by
    refine whQ_neg ?_
    by_cases hp : pClosing.contains name = true
    · have hb : name ∈ blockNames := by
        have : name ∈ pClosing := by simpa using hp
        revert this hn
        unfold pClosing ownRules blockNames headings headingNames
        simp only [List.mem_append, List.mem_cons, List.not_mem_nil, or_false]
        grind
      have : s.inScope C.E.U c%"p" pScope = none := lastIdxStop_none fun i hi => by simpa using h.noP (m1 hb) hi
      rw [this]; simp
    · rw [Bool.not_eq_true] at hp; rw [hp]; rfl
  refine (bind_val e1).trans ?_
  by_cases h1 : name = c%"li"
  · rw [if_pos h1]
    unfold closeLi
    rw [q_bind]
    have : (s.lastIdxStop (fun n => n.name = c%"li") fun n => specialNode n && ![c%"address", c%"div", c%"p"].contains n.name) = none := by
      rcases m3 h1 with ⟨p, hp, hp'⟩ | hl
      · have et := h.top_head hp
        refine lastIdxStop_stop ?_ ?_
        · rw [et]
          simp only [List.mem_cons, List.not_mem_nil, or_false] at hp'
          rcases hp' with rfl | rfl | rfl | rfl <;> decide
        · unfold specialNode
          rw [et, h.topHtml]
          simp only [List.mem_cons, List.not_mem_nil, or_false] at hp'
          rcases hp' with rfl | rfl | rfl | rfl <;> decide
      · exact lastIdxStop_none fun i hi => by simpa using h.not_open hi hl (by decide)
    rw [this]
    rfl
  rw [if_neg h1]
  by_cases h2 : name = c%"dd" ∨ name = c%"dt"
  · rw [if_pos (by simpa using h2)]
    have hc : ∀ x, x = c%"dd" ∨ x = c%"dt" → closeBefore' x ddScope C s = ((), s) := by
      intro x hx
      have : s.closeIdx x ddScope = none := by
        unfold St.closeIdx
        rcases m4 h2 with ⟨p, hp, rfl⟩ | ⟨g1, g2⟩
        · have et := h.top_head hp
          refine lastIdxStop_stop ?_ ?_
          · rw [et]; rcases hx with rfl | rfl <;> decide
          · rw [et, h.topOpen]; decide
        · refine lastIdxStop_none fun i hi => ?_
          rcases hx with rfl | rfl
          · simpa using h.not_open hi g1 (by decide)
          · simpa using h.not_open hi g2 (by decide)
      unfold closeBefore' closeBefore
      rw [bind_eq, q_bind, this]
      rfl
    exact (bind_val (hc _ (.inl rfl))).trans (hc _ (.inr rfl))
  rw [if_neg (by simpa using h2), if_neg (hne c%"option" (by decide)), if_neg (hne c%"optgroup" (by decide))]
  by_cases h3 : headings.contains name = true
  · rw [if_pos h3]
    have ep : popForeign C s = ((), s) := by
      unfold popForeign
      congr 1
      unfold St.popWhile
      have : ∀ l : List Nat, (∀ i ∈ l, i ∈ s.stack) → popW (fun i => !openHtml (s.n i).ns && s.ctxNode ≠ some i && !htmlPoint C.E.U (s.n i) && !mathPoint (s.n i)) l = l := by
        intro l hl
        match l with
        | [] => rfl
        | [x] => rfl
        | x :: y :: l =>
          rw [popW, if_neg]
          rw [isHtml_open (h.nodes x (hl x (by simp))).2.1]
          simp
      rw [this _ fun i hi => by simpa using hi, List.reverse_reverse]
    refine (bind_val ep).trans (whQ_neg ?_)
    have hh : name ∈ headingNames := by simpa [headings, headingNames] using h3
    cases anc with
    | nil =>
      rw [h.topName]
      unfold base
      by_cases hf : C.fragment = true
      · rw [if_pos hf]; decide
      · rw [if_neg hf]; decide
    | cons p l =>
      rw [h.topName_cons]
      have := m2 hh p (by simp)
      simpa [headings, headingNames] using this
  · rw [if_neg h3]; rfl

theorem flow_startGeneral (hC : RawC C) (h : Flow C anc s) (t : Tag) (hn : t.name ∉ ownRules) (ha : Tame t.name t.a) (hal : t.allowed = true) (hm : MayNest anc t.name) :
    ∃ d, startGeneral t C s = ((),
      if htmlVoids.contains t.name then { s.child (elementNode t.name t.attrs (some c%"html")) with fmtDirty := d }
      else { s.child (elementNode t.name t.attrs (some c%"html")) with stack := s.stack ++ [s.heap.length], fmtDirty := d }) := by
  have hne : ∀ x ∈ ownRules, t.name ≠ x := fun x hx => own_ne hn hx
  have e1 : startParent t C s = (s.top, s) := by
    unfold startParent
    rw [q_bind]
    have ei : startInHead t C s = false := by unfold startInHead; rw [ha.head]; simp
    rw [ei]
    refine (bind_val (whQ_same (flow_repairStack h hn hm))).trans ?_
    rw [q_bind]
    refine (iteQ_neg (by simp [hne c%"table" (by decide)])).trans ?_
    show (s.curParent, s) = _
    rw [h.curParent]
  unfold startGeneral
  have e2 : isTablePart t.name t.a = false := by
    unfold isTablePart
    rw [ha.section', ha.cell, sub_own (l := [c%"caption", c%"col", c%"colgroup", c%"tr"]) (by decide) hn]
    rfl
  have e3 : ∃ d, reconParent (fun _ _ => t.ht && reconBefore t) s.top C s = (s.top, { s with fmtDirty := d }) := by
    unfold reconParent
    by_cases hd : (s.fmtDirty && (t.ht && reconBefore t)) = true
    · refine ⟨false, ?_⟩
      refine (iteQ_pos hd).trans ?_
      refine (bind_val h.reconstruct).trans ?_
      show (({ s with fmtDirty := false } : St).curParent, _) = _
      rw [(h.dirty false).curParent]
      rfl
    · exact ⟨s.fmtDirty, iteQ_neg (by simpa using hd)⟩
  obtain ⟨d, hd⟩ := e3
  refine ⟨d, ?_⟩
  have h' := h.dirty d
  refine (bind_val e1).trans ?_
  refine (iteQ_neg (by rw [e2]; simp)).trans ?_
  unfold startFinish
  refine (bind_val hd).trans ?_
  rw [if_pos hal]
  unfold startAllowed
  have e4 : reconParent (fun C s' => fosterTargets.contains (s'.n s.top).name && !C.plan.tableAllowedChildren.contains t.name && !flag t.a (·.pClosing)) s.top C { s with fmtDirty := d } =
      (s.top, { s with fmtDirty := d }) := iteQ_neg (by
        have : fosterTargets.contains (({ s with fmtDirty := d } : St).n s.top).name = false := foster_top h'
        exact (congrArg (fun z => d && (z && !C.plan.tableAllowedChildren.contains t.name && !flag t.a (·.pClosing))) this).trans (by simp))
  refine (bind_val e4).trans ?_
  refine (bind_val (flow_insertEl hC h' hn t.attrs t.sc)).trans ?_
  refine (bind_val (whQ_neg (by rw [sub_own (l := headOnlyVoid) (by decide) hn]; rfl))).trans ?_
  have h2 : ∀ s' : St, s' = (if htmlVoids.contains t.name = true then ({ s with fmtDirty := d } : St).child (elementNode t.name t.attrs (some c%"html"))
      else { ({ s with fmtDirty := d } : St).child (elementNode t.name t.attrs (some c%"html")) with stack := s.stack ++ [s.heap.length] }) →
      s'.inNoscript = false ∧ s'.headReentry = false := by
    rintro s' rfl
    split
    · exact ⟨h.noscript, h.reentry⟩
    · exact ⟨h.noscript, h.reentry⟩
  generalize hs' : (if htmlVoids.contains t.name = true then ({ s with fmtDirty := d } : St).child (elementNode t.name t.attrs (some c%"html"))
      else { ({ s with fmtDirty := d } : St).child (elementNode t.name t.attrs (some c%"html")) with stack := ({ s with fmtDirty := d } : St).stack ++ [({ s with fmtDirty := d } : St).heap.length] }) = s'
  obtain ⟨g1, g2⟩ := h2 s' hs'.symm
  refine (bind_val (whQ_neg (by rw [g1]; rfl))).trans ?_
  refine (bind_val (whQ_neg ha.lf)).trans ?_
  have e5 : finishReentry C s' = ((), s') := by
    unfold finishReentry
    rw [q_bind, g2]
    rfl
  rw [e5, ← hs']
  congr 1

/-! ### Formatting elements -/

theorem scanFmt_none {l : List (Option FEntry)} {hit : FEntry → Bool} {stop : Bool} (h : ∀ e, some e ∈ l → hit e = false) (n : Nat) (hn : n ≤ l.length) :
    scanFmt l hit stop n = none := by
  induction n with
  | zero => rfl
  | succ n ih =>
    rw [scanFmt]
    rw [List.getD_eq_getElem?_getD, List.getElem?_eq_getElem hn, Option.getD_some]
    cases hl : l[n] with
    | none =>
      dsimp only
      split
      · rfl
      · exact ih (by omega)
    | some e =>
      dsimp only
      rw [h e (by rw [← hl]; exact List.getElem_mem _), if_neg (by simp)]
      exact ih (by omega)

theorem Flow.entries (h : Flow C anc s) : ∃ es : List FEntry, s.fmt = es.map some ∧ (∀ e ∈ es, e.active = true ∧ e.name = (s.n e.node).name ∧ e.node ∈ s.stack) ∧
    es.map (·.node) = s.stack.filter fun i => formatting.contains (s.n i).name := by
  obtain ⟨es, h1, h2, h3⟩ := h.fmt
  refine ⟨es, h1, fun e he => ⟨(h2 e he).1, (h2 e he).2, ?_⟩, h3⟩
  have : e.node ∈ es.map (·.node) := List.mem_map_of_mem he
  rw [h3] at this
  exact (List.mem_filter.1 this).1

theorem flow_fmtFind (h : Flow C anc s) {x : Str} (hx : x ∉ anc) (h1 : x ∉ [c%"#document-fragment", c%"#document", c%"html", c%"body"]) : s.fmtFind x = none := by
  obtain ⟨es, e1, e2, -⟩ := h.entries
  unfold St.fmtFind
  refine scanFmt_none (fun e he => ?_) _ (Nat.le_refl _)
  rw [e1] at he
  obtain ⟨e', he', e0⟩ := List.mem_map.1 he
  cases e0
  obtain ⟨-, g2, g3⟩ := e2 e he'
  have := h.not_open g3 hx h1
  rw [← g2] at this
  simp [this]

theorem takeWhile_some (es : List FEntry) : (es.map some).takeWhile Option.isSome = es.map some := by
  induction es with
  | nil => rfl
  | cons e es ih => rw [List.map_cons, List.takeWhile_cons]; simp [ih]

theorem segment_all (es : List FEntry) (h : s.fmt = es.map some) : s.segment = es := by
  unfold St.segment
  rw [h, ← List.map_reverse, takeWhile_some, ← List.map_reverse, List.reverse_reverse]
  simp

theorem flow_count (h : Flow C anc s) {name : Str} (hf : formatting.contains name = true) (es : List FEntry) (h2 : ∀ e ∈ es, e.name = (s.n e.node).name)
    (h3 : es.map (·.node) = s.stack.filter fun i => formatting.contains (s.n i).name) : (es.filter fun e => e.name = name).length = (anc.filter (· = name)).length := by
  have e1 : es.filter (fun e => e.name = name) = es.filter ((fun i => decide ((s.n i).name = name)) ∘ (·.node)) :=
    List.filter_congr fun e he => by simp [h2 e he]
  have e2 : (es.filter ((fun i => decide ((s.n i).name = name)) ∘ (·.node))).length = ((es.map (·.node)).filter fun i => decide ((s.n i).name = name)).length := by
    rw [List.filter_map, List.length_map]
  rw [e1, e2, h3, List.filter_filter]
  have e3 : s.stack.filter (fun i => decide ((s.n i).name = name) && formatting.contains (s.n i).name) = s.stack.filter ((fun x => decide (x = name)) ∘ fun i => (s.n i).name) :=
    List.filter_congr fun i _ => by
      by_cases e : (s.n i).name = name
      · simp only [e, Function.comp, hf]; rfl
      · simp [e]
  have e4 : (s.stack.filter ((fun x => decide (x = name)) ∘ fun i => (s.n i).name)).length = ((s.stack.map fun i => (s.n i).name).filter fun x => decide (x = name)).length := by
    rw [List.filter_map, List.length_map]
  rw [e3, e4, h.names, List.filter_append, List.filter_reverse, List.length_append, List.length_reverse]
  have e5 : (base C).filter (fun x => decide (x = name)) = [] := by
    refine List.filter_eq_nil_iff.2 fun x hx => ?_
    have hx' : x ∉ formatting := by
      unfold base at hx
      by_cases hfr : C.fragment = true
      · rw [if_pos hfr] at hx; revert x; decide
      · rw [if_neg hfr] at hx; revert x; decide
    have hf' : name ∈ formatting := by simpa using hf
    intro e
    exact hx' (by rw [of_decide_eq_true e]; exact hf')
  rw [e5]
  simp

theorem flow_fmtDuplicate (h : Flow C anc s) {name : Str} (hf : formatting.contains name = true) (hm : (anc.filter (· = name)).length < 3) (sig : Attrs) :
    s.fmtDuplicate name sig = none := by
  obtain ⟨es, e1, e2, e3⟩ := h.entries
  unfold St.fmtDuplicate
  rw [segment_all es e1]
  have hc := flow_count h hf es (fun e he => (e2 e he).2.1) e3
  have : (es.filter fun e => e.active && e.name = name && sameSig e.sig sig).length ≤ (es.filter fun e => e.name = name).length := by
    have e : es.filter (fun e => e.active && e.name = name && sameSig e.sig sig) = (es.filter fun e => e.name = name).filter fun e => e.active && sameSig e.sig sig := by
      rw [List.filter_filter]
      exact List.filter_congr fun e _ => by cases e.active <;> cases decide (e.name = name) <;> cases sameSig e.sig sig <;> rfl
    rw [e]
    exact List.length_filter_le _ _
  dsimp only
  rw [if_neg (by omega)]

theorem fmt_not_void {name : Str} (hf : formatting.contains name = true) : htmlVoids.contains name = false := by
  have : ∀ x ∈ formatting, htmlVoids.contains x = false := by decide
  exact this name (by simpa using hf)

theorem addEntry_eq (name : Str) (sig attrs : Attrs) (node : Nat) (h : (s.n node).attrs = attrs) : addEntry name sig node C s =
    ((), { s with fmt := s.fmt ++ [some { eid := s.fmtNext, name := name, attrs := attrs, node := node, sig := sig, active := true }], fmtNext := s.fmtNext + 1 }) := by
  subst h; rfl

theorem flow_formattingStart (hC : RawC C) (h : Flow C anc s) {name : Str} (hn : name ∉ ownRules) (hf : formatting.contains name = true) (hm : MayNest anc name) (attrs : Attrs) :
    ∃ d k f, EntryFor s name f ∧ formattingStart name attrs false C s = ((), s.opened name attrs f d k s.fosterWs) := by
  have hfm : name ∈ formattingNames := by
    have : name ∈ formatting := by simpa using hf
    revert this hn
    unfold formatting ownRules formattingNames
    simp only [List.mem_cons, List.not_mem_nil, or_false]
    grind
  obtain ⟨d, hd⟩ := flow_reconIfDirty h
  have h' := h.dirty d
  refine ⟨d, s.fmtNext + 1, [{ eid := s.fmtNext, name := name, attrs := attrs, node := s.heap.length, sig := attrs, active := true }], ?_, ?_⟩
  · unfold EntryFor
    rw [if_pos hf]
    exact ⟨_, rfl, rfl, rfl, rfl⟩
  unfold formattingStart
  refine (bind_val (show compactFmt C s = ((), s) from whQ_neg (by rw [h.retired]; rfl))).trans ?_
  have e1 : ((name = c%"a" && (s.fmtFind c%"a").isSome) || (name = c%"nobr" && (s.findOpen c%"nobr").isSome)) = false := by
    rw [h.findOpen (x := c%"nobr") (by decide) (by decide) (by decide)]
    by_cases e : name = c%"a"
    · rw [flow_fmtFind h (hm.2.2.2.2.1 e) (by decide)]; simp
    · simp [e]
  refine (bind_val (whQ_neg e1)).trans ?_
  refine (bind_val hd).trans ?_
  rw [q_bind, flow_fmtDuplicate h' hf (hm.2.2.2.2.2 hfm)]
  show (formattingElement name attrs false >>= fun node => addEntry name attrs node) C { s with fmtDirty := d } = _
  have e2 : formattingElement name attrs false C { s with fmtDirty := d } = (s.heap.length,
      { ({ s with fmtDirty := d } : St).child (elementNode name attrs (some c%"html")) with stack := s.stack ++ [s.heap.length] }) := by
    unfold formattingElement
    rw [q_bind, if_neg (by simp), h'.curParent]
    have := flow_insertEl hC h' hn attrs false
    rw [fmt_not_void hf] at this
    exact this
  refine (bind_val e2).trans ?_
  have hat : (({ s with fmtDirty := d } : St).child (elementNode name attrs (some c%"html"))).n s.heap.length =
      { elementNode name attrs (some c%"html") with parent := some s.top } := child_new _ _ h'.top_lt
  refine (addEntry_eq name attrs attrs s.heap.length ?_).trans rfl
  show ((({ s with fmtDirty := d } : St).child (elementNode name attrs (some c%"html"))).n s.heap.length).attrs = attrs
  rw [hat]; rfl

/-! ### The tag -/

theorem void_iff {name : Str} (hn : name ∉ ownRules) : htmlVoids.contains name = true ↔ name ∈ emptyNames := by
  rw [List.contains_eq_mem, decide_eq_true_iff]
  revert hn
  unfold htmlVoids voids ownRules emptyNames
  simp only [List.mem_append, List.mem_cons, List.not_mem_nil, or_false]
  grind

theorem fmt_not_empty {name : Str} (hn : name ∉ ownRules) (hf : formatting.contains name = true) : name ∉ emptyNames := by
  intro h
  have := fmt_not_void hf
  rw [(void_iff hn).2 h] at this
  cases this

theorem rawAttrs_good {as : Attrs} (h : ∀ a ∈ as, PlainAttr a.1) : rawAttrs C as = as := by
  unfold rawAttrs
  split
  · refine List.filter_eq_self.2 fun a ha => ?_
    obtain ⟨h1, h2⟩ := h a ha
    have : plainAttrName a.1 = true := by
      unfold plainAttrName
      rw [Bool.and_eq_true]
      refine ⟨by simpa using h1, List.all_eq_true.2 fun c hc => ?_⟩
      obtain ⟨g1, g2⟩ := h2 c hc
      rw [space_plain g1]
      obtain ⟨-, -, -, -, -, -, -, -, k1, k2⟩ := g1
      simp [k1, k2, g2]
    rw [this]
    simp
  · rfl

/-- What a start tag does: the element is appended and, unless it is empty, opened. -/
theorem flow_startTag (hC : RawC C) (h : Flow C anc s) {name : Str} (hp : PlainTag name) (hn : name ∉ ownRules) {as : Attrs} (hg : GoodAttrs name as)
    (hm : MayNest anc name) (rest : Str) : ∃ b d k f, EntryFor s name f ∧
    startTag (name ++ (as.flatMap attrText ++ '>' :: rest)) C s = (rest,
      if name ∈ emptyNames then { s.child (elementNode name as (some c%"html")) with framesetBlocked := b, fmtDirty := d }
      else { s.opened name as f d k s.fosterWs with framesetBlocked := b }) := by
  have hsp := splitName_plain hp (rest := as.flatMap attrText ++ '>' :: rest) (by
    intro c hc
    rcases (follows_rest as (fun a ha => (hg.2 a ha).1) rest).head with e | e <;> (rw [e] at hc; cases hc; rfl))
  have hgn : generalName C name = name := by
    unfold generalName compiledName
    rw [fold_plain C hp.2, ite_self, nulFix_plain hp.2]
  have hst : startTag (name ++ (as.flatMap attrText ++ '>' :: rest)) C s =
      startChain { name := name, a := C.plan.action name, attrs := as, sc := false, pos := rest, allowed := true, foreign := false } C s := by
    unfold startTag
    refine (bind_val (show cfg C s = (C, s) from rfl)).trans ?_
    have e1 : markInitial C s = ((), s) := congrArg (Prod.mk ()) (if_neg h.quirks)
    refine (bind_val e1).trans ?_
    have him : (if name = c%"image" && !false then c%"img" else name) = name := if_neg (by simp [own_ne hn (x := c%"image") (by decide)])
    have hsc : (if C.plan.rawMode || name = c%"math" || name = c%"svg" || false then allAttrs C (as.flatMap attrText ++ '>' :: rest)
        else actionAttrs C (C.plan.action name) (as.flatMap attrText ++ '>' :: rest)) = ⟨as, false, rest, true, false⟩ := by
      rw [hC.raw]
      exact allAttrs_read C hg rest
    rw [q_bind, h.topOpen, hsp]
    dsimp only
    rw [Bool.not_true, hgn, him, hsc]
    show startChain { name := name, a := C.plan.action name, attrs := rawAttrs C as, sc := false, pos := rest, allowed := C.plan.rawMode || flag (C.plan.action name) (·.allowed), foreign := false } C s = _
    rw [rawAttrs_good fun a ha => (hg.2 a ha).1, hC.raw]
    rfl
  rw [hst]
  have ha := hC.tame hn
  obtain ⟨b, hb⟩ := flow_tests1 h ({ name := name, a := C.plan.action name, attrs := as, sc := false, pos := rest, allowed := true, foreign := false } : Tag) hn rfl
  unfold startChain
  have hs' : Flow C anc { s with framesetBlocked := b } := h.blocked b
  have fin : ∀ s' : St, (if formatting.contains name then formattingStart name as false else
      startGeneral { name := name, a := C.plan.action name, attrs := as, sc := false, pos := rest, allowed := true, foreign := false, ht := true }) C { s with framesetBlocked := b } = ((), s') →
      (chainR (startTests1 { name := name, a := C.plan.action name, attrs := as, sc := false, pos := rest, allowed := true, foreign := false }) >>= fun x =>
        match x with
        | some r => pure r
        | none => do
          let ht ← q fun C s => usesHtmlText name C s
          let r ← chainR (startTests2 { name := name, a := C.plan.action name, attrs := as, sc := false, pos := rest, allowed := true, foreign := false, ht := ht })
          pure (r.getD rest) : EM Str) C s = (rest, s') := by
    intro s' hs
    rw [bind_val hb]
    have hht : usesHtmlText name C { s with framesetBlocked := b } = true := by
      unfold usesHtmlText
      rw [hs'.topOpen]; rfl
    show (q (fun C s => usesHtmlText name C s) >>= _ : EM Str) C { s with framesetBlocked := b } = _
    rw [q_bind, hht]
    rw [bind_val (flow_tests2 hC hs' { name := name, a := C.plan.action name, attrs := as, sc := false, pos := rest, allowed := true, foreign := false, ht := true } hn rfl ha rfl hs)]
    rfl
  by_cases hf : formatting.contains name = true
  · obtain ⟨d, k, f, g1, g2⟩ := flow_formattingStart hC hs' hn hf hm as
    refine ⟨b, d, k, f, g1, ?_⟩
    rw [if_neg (fmt_not_empty hn hf)]
    refine (fin (({ s with framesetBlocked := b } : St).opened name as f d k s.fosterWs) (by rw [if_pos hf]; exact g2)).trans ?_
    rfl
  · obtain ⟨d, g⟩ := flow_startGeneral hC hs' { name := name, a := C.plan.action name, attrs := as, sc := false, pos := rest, allowed := true, foreign := false, ht := true } hn ha rfl hm
    refine ⟨b, d, s.fmtNext, [], by unfold EntryFor; rw [if_neg hf], ?_⟩
    refine (fin (if htmlVoids.contains name then { ({ s with framesetBlocked := b } : St).child (elementNode name as (some c%"html")) with fmtDirty := d }
      else { ({ s with framesetBlocked := b } : St).child (elementNode name as (some c%"html")) with stack := s.stack ++ [s.heap.length], fmtDirty := d }) (by rw [if_neg hf]; exact g)).trans ?_
    dsimp only
    by_cases hv : name ∈ emptyNames
    · rw [if_pos hv, if_pos ((void_iff hn).2 hv)]
      rfl
    · rw [if_neg hv, if_neg (fun e => hv ((void_iff hn).1 e))]
      unfold St.opened
      rw [List.map_nil, List.append_nil]
      rfl

end JH.Eng
