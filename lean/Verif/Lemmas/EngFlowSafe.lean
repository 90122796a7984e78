import Verif.Lemmas.EngRound

/-! The steps of a sanitizing parse on markup that the policy leaves alone (C82). -/
namespace JH.Eng
open JH.Spec

variable {C : Cfg} {anc : List Str} {s : St} {name : Str}

/-- The configuration of a sanitizing parse. -/
structure SafeC (C : Cfg) : Prop where
  raw : C.plan.rawMode = false
  spans : C.spans = false
  locs : C.locs = false
  ctx : C.ctxName = none ∨ C.ctxName = some c%"div"
  tame : ∀ name, name ∉ ownRules → Tame name (C.plan.action name)
  void : ∀ name a, C.plan.action name = some a → a.void = voids.contains name
  simpleEnd : ∀ name a, C.plan.action name = some a → a.simpleEnd = true → formatting.contains name = false
  simpleStart : ∀ name a, C.plan.action name = some a → a.simpleStart = true → formatting.contains name = false
  listed : ∀ name a, C.plan.action name = some a → a.allowed = true → C.plan.allowedTags.contains name = true

theorem SafeC.safe (hC : SafeC C) : useSafe C = true := by unfold useSafe; rw [hC.raw, hC.spans, hC.locs]; rfl

theorem markup_start_safe (h : Flow C anc s) (hs : useSafe C = true) (hp : PlainTag name) (x : Str) :
    rangeMarkup (name ++ x) C s = safeStartTag (name ++ x) C { s with fosterWs := 0 } := by
  obtain ⟨c, r, e, h1, h2⟩ := hp.1
  have hc : isAsciiLetter c = true := by simp [isAsciiLetter, h1, h2]
  have hne : c ≠ '/' := by rintro rfl; simp [isAsciiLetter] at hc
  rw [e, List.cons_append, rangeMarkup, if_neg hne, if_pos hc]
  unfold rangeStart
  refine (bind_val (show (modS fun s => { s with fosterWs := 0 }) C s = ((), { s with fosterWs := 0 }) from rfl)).trans ?_
  refine (bind_val (resetLf_no h.foster0 _)).trans ?_
  exact iteQ_pos hs

theorem markup_end_safe (h : Flow C anc s) (hs : useSafe C = true) (x : Str) : rangeMarkup ('/' :: x) C s = safeEndTag x C { s with fosterWs := 0 } := by
  rw [rangeMarkup, if_pos rfl]
  unfold rangeEnd
  refine (bind_val (show (modS fun s => { s with fosterWs := 0 }) C s = ((), { s with fosterWs := 0 }) from rfl)).trans ?_
  refine (bind_val (resetLf_no h.foster0 _)).trans ?_
  exact iteQ_pos hs

/-! ### Attributes -/

/-- The tag is allowed, and its attributes are allowed and keep their values. -/
def LeftAlone (C : Cfg) (name : Str) (as : Attrs) : Prop :=
  ∃ a, C.plan.action name = some a ∧ a.allowed = true ∧ (as ≠ [] → a.scanAttrs = true) ∧
    ∀ p ∈ as, p.1 ∈ a.allowedAttrs ∧ ∃ v, p.2 = some v ∧ attrOut C a p.1 v = some v

theorem dictSet_new (key : Str) (v : Option Str) (acc : Attrs) (h : ∀ p ∈ acc, p.1 ≠ key) : dictSet key v acc = acc ++ [(key, v)] := by
  unfold dictSet
  refine if_neg ?_
  simp only [List.any_eq_true, decide_eq_true_eq, not_exists, not_and]
  exact h

theorem actionAttrsF_attr (C : Cfg) (ac : TagAction) (n : Nat) (acc : Attrs) (a : Str × Option Str) {Y : Str} (hk : PlainAttr a.1) {v : Str} (hv : a.2 = some v)
    (hal : a.1 ∈ ac.allowedAttrs) (hout : attrOut C ac a.1 v = some v) (hacc : ∀ p ∈ acc, p.1 ≠ a.1) (hY : Follows Y) :
    ∃ rest, lstripP isHtmlSpace rest = lstripP isHtmlSpace Y ∧ actionAttrsF C ac (n + 1) acc (attrText a ++ Y) = actionAttrsF C ac n (acc ++ [a]) rest := by
  obtain ⟨rest, h1, h2⟩ := attr_value a hY
  refine ⟨rest, h1, ?_⟩
  obtain ⟨c, r, hkey⟩ : ∃ c r, a.1 = c :: r := by
    cases h : a.1 with
    | nil => exact absurd h hk.1
    | cons c r => exact ⟨c, r, rfl⟩
  unfold attrText
  generalize hZ : (if (a.2.getD []).isEmpty = true then [] else
    '=' :: chooseAttrQuote none (a.2.getD []) :: escapeAttr (chooseAttrQuote none (a.2.getD [])) (a.2.getD []) ++ [chooseAttrQuote none (a.2.getD [])]) = Z
    at h2 ⊢
  have hzstop : ∀ x, (Z ++ Y).head? = some x → isAttrStop x = true := by
    intro x hx
    rw [← hZ] at hx
    split at hx
    · rcases hY.head with h | h <;> rw [List.nil_append] at hx <;> rw [h] at hx <;> injection hx with hx <;> subst hx <;> rfl
    · injection hx with hx; subst hx; rfl
  have hch := hk.2
  rw [hkey] at hch
  have hc := hch c (by simp)
  have e0 : lstripP isHtmlSpace ((' ' :: a.1 ++ Z) ++ Y) = c :: (r ++ (Z ++ Y)) := by
    rw [hkey]
    simp [lstripP, List.dropWhile, space_plain hc.1, show isHtmlSpace ' ' = true from rfl]
  have htw := takeWhile_append_stop (p := fun x => !isAttrStop x) (a := r) (b := Z ++ Y)
    (fun x hx => by simp [attrStop_plain (hch x (by simp [hx])).1 (hch x (by simp [hx])).2]) (fun x hx => by simp [hzstop x hx])
  rw [actionAttrsF, e0]
  dsimp only
  have hin : ac.allowedAttrs.contains (c :: r) = true := by rw [← hkey]; simpa using hal
  rw [htw.1, htw.2, h2, if_neg hc.1.2.2.2.2.2.2.2.2.2]
  rw [if_neg (by simp [hc.1.2.2.2.2.2.2.2.2.1]), if_neg (by simp [hc.1.2.2.2.2.2.2.2.2.1, hc.2])]
  rw [if_pos hin, hin]
  dsimp only
  rw [if_neg (by simp), decode_raw C a hv]
  dsimp only
  rw [if_neg (by simp), ← hkey, hout]
  dsimp only
  rw [dictSet_new _ _ _ hacc, ← hv]

theorem actionAttrsF_strip (C : Cfg) (ac : TagAction) (n : Nat) (acc : Attrs) {s t : Str} (h : lstripP isHtmlSpace s = lstripP isHtmlSpace t) :
    actionAttrsF C ac (n + 1) acc s = actionAttrsF C ac (n + 1) acc t := by
  unfold actionAttrsF
  rw [h]

theorem actionAttrsF_all (C : Cfg) (ac : TagAction) (as : List (Str × Option Str)) (rest : Str) : ∀ (n : Nat) (acc : Attrs) (s : Str), as.length < n →
    lstripP isHtmlSpace s = lstripP isHtmlSpace (as.flatMap attrText ++ '>' :: rest) → ((acc ++ as).map (·.1)).Nodup →
    (∀ a ∈ as, PlainAttr a.1 ∧ a.1 ∈ ac.allowedAttrs ∧ ∃ v, a.2 = some v ∧ attrOut C ac a.1 v = some v) →
    actionAttrsF C ac n acc s = ⟨acc ++ as, false, rest, true, false⟩ := by
  induction as with
  | nil =>
    intro n acc s hn hs _ _
    obtain ⟨n, rfl⟩ : ∃ m, n = m + 1 := ⟨n - 1, by simp at hn; omega⟩
    rw [actionAttrsF_strip C ac n acc hs]
    simp [actionAttrsF, lstripP, isHtmlSpace]
  | cons a as ih =>
    intro n acc s hn hs hd hg
    obtain ⟨n, rfl⟩ : ∃ m, n = m + 1 := ⟨n - 1, by simp at hn; omega⟩
    obtain ⟨hk, hal, v, hv, hp⟩ := hg a (by simp)
    rw [actionAttrsF_strip C ac n acc hs, List.flatMap_cons, List.append_assoc]
    obtain ⟨r, h1, h2⟩ := actionAttrsF_attr C ac n acc a hk hv hal hp (by
      intro p hp' e
      rw [List.map_append, List.map_cons, List.nodup_append] at hd
      exact hd.2.2 p.1 (List.mem_map_of_mem hp') a.1 (by simp) e) (follows_rest as (fun a ha => (hg a (by simp [ha])).1) rest)
    rw [h2, ih n (acc ++ [a]) r (by simp at hn; omega) h1 (by simpa using hd) fun a ha => hg a (by simp [ha])]
    simp

/-- The attributes are read back. -/
theorem safeScan_read {as : Attrs} (hg : GoodAttrs name as) (hk : LeftAlone C name as) (rest : Str) :
    safeScan C (C.plan.action name) (as.flatMap attrText ++ '>' :: rest) = ⟨as, false, rest, true, false⟩ := by
  obtain ⟨a, h1, h2, h3, h4⟩ := hk
  unfold safeScan
  cases as with
  | nil => rfl
  | cons p as =>
    rw [if_neg (by simp [attrText])]
    unfold actionAttrs
    rw [h1]
    dsimp only
    rw [h3 (by simp), if_neg (by simp)]
    have := flatMap_attr_len (p :: as)
    rw [actionAttrsF_all C a (p :: as) rest _ [] _ (by rw [List.length_append]; omega) rfl (by simpa using hg.1) fun q hq =>
      ⟨(hg.2 q hq).1, (h4 q hq).1, (h4 q hq).2⟩]
    rfl

/-! ### Start tags -/

theorem flow_insertCompiled (h : Flow C anc s) (hn : name ∉ ownRules) (attrs : Attrs) :
    insertCompiled name attrs s.top C s = (s.heap.length,
      if htmlVoids.contains name then s.child (elementNode name attrs (some c%"html"))
      else { s.child (elementNode name attrs (some c%"html")) with stack := s.stack ++ [s.heap.length] }) := by
  unfold insertCompiled
  have epl : placeCompiled name attrs s.top C s = (s.heap.length, s.child (elementNode name attrs (some c%"html"))) := by
    unfold placeCompiled
    refine (bind_val (show alloc (elementNode name attrs (some c%"html")) C s = (s.heap.length, s.add (elementNode name attrs (some c%"html"))) from rfl)).trans ?_
    refine (bind_val (whQ_neg (by simp [own_ne hn (x := c%"selectedcontent") (by decide)]))).trans ?_
    rw [q_bind]
    have e2 : fosterTargets.contains ((s.add (elementNode name attrs (some c%"html"))).n s.top).name = false := by
      rw [n_add_lt _ _ h.top_lt]; exact foster_top h
    rw [e2]
    refine (bind_val (show _ = ((), s.child (elementNode name attrs (some c%"html"))) from ?_)).trans ?_
    · have ho : (s.add (elementNode name attrs (some c%"html"))).older s.top s.heap.length = s.top := if_pos h.top_lt
      refine Prod.ext rfl ?_
      show St.linkLast _ (St.older _ _ _) _ = _
      rw [ho]; rfl
    · rfl
  refine (bind_val epl).trans ?_
  by_cases hv : htmlVoids.contains name = true
  · rw [if_pos hv]
    exact (bind_val (whQ_neg (by simpa using hv))).trans rfl
  · rw [if_neg hv]
    refine (bind_val (whQ_pos (by simpa using hv))).trans rfl

theorem flow_formattingStart_safe (h : Flow C anc s) (hn : name ∉ ownRules) (hf : formatting.contains name = true) (hm : MayNest anc name)
    (hal : C.plan.allowedTags.contains name = true) (attrs : Attrs) :
    ∃ d k f, EntryFor s name f ∧ formattingStart name attrs true C s = ((), s.opened name attrs f d k s.fosterWs) := by
  have hfm : name ∈ formattingNames := by
    have : name ∈ formatting := by simpa using hf
    revert this hn
    unfold formatting ownRules formattingNames
    simp only [List.mem_cons, List.not_mem_nil, or_false]
    grind
  obtain ⟨d, hd⟩ := flow_reconIfDirty h
  have h' := h.dirty d
  refine ⟨d, s.fmtNext + 1, [{ eid := s.fmtNext, name := name, attrs := attrs, node := s.heap.length, sig := attrs, active := true }], ?_, ?_⟩
  · unfold EntryFor
    rw [if_pos hf]
    exact ⟨_, rfl, rfl, rfl, rfl⟩
  unfold formattingStart
  refine (bind_val (show compactFmt C s = ((), s) from whQ_neg (by rw [h.retired]; rfl))).trans ?_
  have e1 : ((name = c%"a" && (s.fmtFind c%"a").isSome) || (name = c%"nobr" && (s.findOpen c%"nobr").isSome)) = false := by
    rw [h.findOpen (x := c%"nobr") (by decide) (by decide) (by decide)]
    by_cases e : name = c%"a"
    · rw [flow_fmtFind h (hm.2.2.2.2.1 e) (by decide)]; simp
    · simp [e]
  refine (bind_val (whQ_neg e1)).trans ?_
  refine (bind_val hd).trans ?_
  rw [q_bind, flow_fmtDuplicate h' hf (hm.2.2.2.2.2 hfm)]
  show (formattingElement name attrs true >>= fun node => addEntry name attrs node) C { s with fmtDirty := d } = _
  have e2 : formattingElement name attrs true C { s with fmtDirty := d } = (s.heap.length,
      { ({ s with fmtDirty := d } : St).child (elementNode name attrs (some c%"html")) with stack := s.stack ++ [s.heap.length] }) := by
    unfold formattingElement
    rw [q_bind, if_pos rfl, h'.curParent]
    have := flow_insertCompiled h' hn attrs
    rw [fmt_not_void hf] at this
    refine (bind_val this).trans ?_
    exact (bind_val (whQ_neg (by rw [hal]; rfl))).trans rfl
  refine (bind_val e2).trans ?_
  have hat : (({ s with fmtDirty := d } : St).child (elementNode name attrs (some c%"html"))).n s.heap.length =
      { elementNode name attrs (some c%"html") with parent := some s.top } := child_new _ _ h'.top_lt
  refine (addEntry_eq name attrs attrs s.heap.length ?_).trans rfl
  show ((({ s with fmtDirty := d } : St).child (elementNode name attrs (some c%"html"))).n s.heap.length).attrs = attrs
  rw [hat]; rfl

theorem flow_safeGeneral (h : Flow C anc s) (t : Tag) (hn : t.name ∉ ownRules) (ha : Tame t.name t.a) (hal : flag t.a (·.allowed) = true) (hm : MayNest anc t.name) :
    safeGeneral t C s = ((),
      if htmlVoids.contains t.name then s.child (elementNode t.name t.attrs (some c%"html"))
      else { s.child (elementNode t.name t.attrs (some c%"html")) with stack := s.stack ++ [s.heap.length] }) := by
  have hne : ∀ x ∈ ownRules, t.name ≠ x := fun x hx => own_ne hn hx
  have e1 : safeParent t C s = (s.top, s) := by
    unfold safeParent
    rw [q_bind, ha.head]
    refine (bind_val (whQ_same (flow_repairStack h hn hm))).trans ?_
    rw [q_bind]
    refine (iteQ_neg (by simp [hne c%"table" (by decide)])).trans ?_
    rw [Bool.and_false, Bool.false_and, Bool.false_and, Bool.false_and, Bool.false_and]
    show (s.curParent, s) = _
    rw [h.curParent]
  have e2 : isTablePart t.name t.a = false := by
    unfold isTablePart
    rw [ha.section', ha.cell, sub_own (l := [c%"caption", c%"col", c%"colgroup", c%"tr"]) (by decide) hn]
    rfl
  unfold safeGeneral
  refine (bind_val e1).trans ?_
  refine (iteQ_neg (by rw [e2]; simp)).trans ?_
  unfold safeFinish
  rw [if_pos hal]
  unfold safeAllowed
  refine (bind_val (show reconParent _ s.top C s = (s.top, s) from iteQ_neg (by rw [foster_top h]; simp))).trans ?_
  refine (bind_val (flow_insertCompiled h hn t.attrs)).trans ?_
  refine (bind_val (whQ_neg (by rw [ha.cell, sub_own (l := markerTags) (by decide) hn]; rfl))).trans ?_
  exact whQ_neg ha.lf

theorem flow_simpleStart (t : Tag) (ha : Tame t.name t.a) (hv : flag t.a (·.void) = htmlVoids.contains t.name) :
    simpleStart t C s = ((),
      if htmlVoids.contains t.name then s.child (elementNode t.name t.attrs (some c%"html"))
      else { s.child (elementNode t.name t.attrs (some c%"html")) with stack := s.stack ++ [s.heap.length] }) := by
  unfold simpleStart
  refine (bind_val (show alloc (elementNode t.name t.attrs (some c%"html")) C s = (s.heap.length, s.add (elementNode t.name t.attrs (some c%"html"))) from rfl)).trans ?_
  refine (bind_val (show _ = ((), s.child (elementNode t.name t.attrs (some c%"html"))) from rfl)).trans ?_
  by_cases hc : htmlVoids.contains t.name = true
  · rw [if_pos hc]
    refine (bind_val (whQ_neg (by rw [hv, hc]; rfl))).trans ?_
    exact whQ_neg ha.lf
  · rw [if_neg hc]
    refine (bind_val ((whQ_pos (by rw [hv]; simpa using hc)).trans (show push s.heap.length C (s.child (elementNode t.name t.attrs (some c%"html"))) =
        ((), { s.child (elementNode t.name t.attrs (some c%"html")) with stack := s.stack ++ [s.heap.length] }) from rfl))).trans ?_
    exact whQ_neg ha.lf

theorem flow_safeTests {P : Bool → St → Prop} (hC : SafeC C) (h : Flow C anc s) (x : Str) (t : Tag) (hn : t.name ∉ ownRules) (ha : Tame t.name t.a) (hns : simpleStartNow t C s = false)
    (hgo : ∀ b, ∃ s', (if formatting.contains t.name then formattingStart t.name t.attrs true else safeGeneral t) C { s with framesetBlocked := b } = ((), s') ∧
      P b s') :
    ∃ b s', P b s' ∧ chainR (safeTests x t) C s = (some t.pos, s') := by
  have hne : ∀ x ∈ ownRules, t.name ≠ x := fun x hx => own_ne hn hx
  have hx : ∀ x ∈ ownRules, (decide (t.name = x)) = false := fun x hx => by simp [hne x hx]
  obtain ⟨b, hb⟩ := flow_blockFrameset (C := C) (s := s) t.a t.attrs
    (fun C s => inSafeDoc C s && !s.framesetSeen && flag t.a (·.blocksFrameset))
  obtain ⟨s', hm, hP⟩ := hgo b
  refine ⟨b, s', hP, ?_⟩
  have h' : Flow C anc { s with framesetBlocked := b } := h.blocked b
  unfold safeTests
  rw [chainR_next (retIf_neg hns)]
  have e2 : safeColgroup t C s = ((), s) := by
    unfold safeColgroup
    rw [if_neg (hne c%"colgroup" (by decide))]
    exact whQ_neg (by rw [h.colgroup]; rfl)
  rw [chainR_next (goIf_same e2)]
  rw [chainR_next (show safeNoscript t C s = (none, s) from iteQ_neg h.noscript)]
  rw [chainR_next (retIf_neg (by rw [hx c%"html" (by decide)]; simp))]
  rw [chainR_next (retIf_neg (by rw [hx c%"head" (by decide)]; simp))]
  rw [chainR_next (retIf_neg (by rw [hx c%"body" (by decide)]; simp))]
  rw [chainR_next (goIf_neg (by
    have := fun hf => (h.shell hf).1
    unfold inSafeDoc
    cases hfr : C.fragment <;> simp_all))]
  rw [chainR_next (goIf_neg (by
    have := h.notHead
    unfold inSafeDoc
    cases hfr : C.fragment <;> simp_all))]
  rw [chainR_next (goIf_neg (by
    have := h.notHtml
    unfold inSafeDoc
    cases hfr : C.fragment <;> simp_all))]
  rw [chainR_next hb]
  rw [chainR_next (retOk_neg (by rw [hx c%"frameset" (by decide)]))]
  rw [chainR_next (retOk_neg (by rw [hx c%"frameset" (by decide)]; simp))]
  rw [chainR_next (retWith_neg (by rw [h'.frameset]; rfl))]
  rw [chainR_next (retIf_neg (by rw [h'.frameset]; rfl))]
  rw [chainR_next (retIf_neg (by rw [hx c%"frame" (by decide)]))]
  rw [chainR_next (retIf_neg (by rw [hx c%"select" (by decide)]; rfl))]
  rw [chainR_next (goIf_neg (by rw [h'.po]; rfl))]
  rw [chainR_next (retOk_neg (by rw [h'.po]; rfl))]
  rw [chainR_next (retWith_neg ha.drop)]
  rw [chainR_next (retWith_neg ha.subtree)]
  rw [chainR_next (retWith_neg ha.rawText)]
  rw [chainR_next (retIf_neg (by rw [hx c%"noscript" (by decide)]; rfl))]
  rw [chainR_next (retWith_neg ha.rcdata)]
  rw [chainR_next (retWith_neg ha.plaintext)]
  rw [chainR_next (show retOk t.pos (fun C _ => C.ctxName.isSome) (fragmentStart t.name t.attrs t.sc) C { s with framesetBlocked := b } = (none, { s with framesetBlocked := b }) from
    flow_fragmentStart hC.ctx t.name t.attrs t.sc hn)]
  rw [chainR_next (retIf_neg (by rw [hx c%"template" (by decide)]; rfl))]
  rw [chainR_next (retOk_neg (by rw [h'.po]; rfl))]
  rw [chainR_next (retIf_neg (by rw [hx c%"button" (by decide)]; rfl))]
  by_cases hf : formatting.contains t.name = true
  · rw [if_pos hf] at hm
    exact chainR_done (retIf_pos (by rw [ha.fmt, hf]) hm)
  · rw [if_neg hf] at hm
    rw [chainR_next (retIf_neg (by rw [ha.fmt]; simpa using hf))]
    exact chainR_done (retIf_pos rfl hm)

/-- What the start tag of an element that the policy leaves alone does. -/
theorem flow_safeStartTag (hC : SafeC C) (h : Flow C anc s) (hp : PlainTag name) (hn : name ∉ ownRules) {as : Attrs} (hg : GoodAttrs name as)
    (hm : MayNest anc name) (hk : LeftAlone C name as) (rest : Str) : ∃ b d k f, EntryFor s name f ∧
    safeStartTag (name ++ (as.flatMap attrText ++ '>' :: rest)) C s = (rest,
      if name ∈ emptyNames then { s.child (elementNode name as (some c%"html")) with framesetBlocked := b, fmtDirty := d }
      else { s.opened name as f d k s.fosterWs with framesetBlocked := b }) := by
  have hsp := splitName_plain hp (rest := as.flatMap attrText ++ '>' :: rest) (by
    intro c hc
    rcases (follows_rest as (fun a ha => (hg.2 a ha).1) rest).head with e | e <;> (rw [e] at hc; cases hc; rfl))
  have hgn : compiledName C name = name := by
    unfold compiledName
    rw [fold_plain C hp.2, ite_self]
  obtain ⟨a, ha1, ha2, -, -⟩ := id hk
  have ha := hC.tame name hn
  have hst : ∀ s', chainR (safeTests (name ++ (as.flatMap attrText ++ '>' :: rest))
      { name := name, a := C.plan.action name, attrs := as, sc := false, pos := rest, allowed := flag (C.plan.action name) (·.allowed), foreign := false }) C s = (some rest, s') →
      safeStartTag (name ++ (as.flatMap attrText ++ '>' :: rest)) C s = (rest, s') := by
    intro s' hs'
    unfold safeStartTag
    refine (bind_val (show cfg C s = (C, s) from rfl)).trans ?_
    have e1 : markInitial C s = ((), s) := congrArg (Prod.mk ()) (if_neg h.quirks)
    rw [hsp]
    dsimp only
    rw [hgn, if_neg (own_ne hn (x := c%"image") (by decide)), safeScan_read hg hk rest]
    refine (iteQ_neg (by rw [h.foreignSeen]; rfl)).trans ?_
    refine (bind_val e1).trans ?_
    refine (bind_val (show noteErr false C s = ((), s) from rfl)).trans ?_
    rw [if_neg (by simp)]
    exact (bind_val hs').trans rfl
  have hvoid : flag (C.plan.action name) (·.void) = htmlVoids.contains name := by
    rw [ha1]
    show a.void = _
    rw [hC.void name a ha1]
    have := void_iff hn
    have h2 : voids.contains name = true ↔ name ∈ emptyNames := by
      rw [List.contains_eq_mem, decide_eq_true_iff]
      revert hn
      unfold voids ownRules emptyNames
      simp only [List.mem_cons, List.not_mem_nil, or_false]
      grind
    cases h3 : voids.contains name <;> cases h4 : htmlVoids.contains name <;> simp_all
  have gen : ∀ (b : Bool) (s' : St), s' = (if htmlVoids.contains name then ({ s with framesetBlocked := b } : St).child (elementNode name as (some c%"html"))
      else { ({ s with framesetBlocked := b } : St).child (elementNode name as (some c%"html")) with stack := s.stack ++ [s.heap.length] }) →
      s' = (if name ∈ emptyNames then { s.child (elementNode name as (some c%"html")) with framesetBlocked := b, fmtDirty := s.fmtDirty }
      else { s.opened name as [] s.fmtDirty s.fmtNext s.fosterWs with framesetBlocked := b }) := by
    rintro b s' rfl
    by_cases hv : name ∈ emptyNames
    · rw [if_pos hv, if_pos ((void_iff hn).2 hv)]
      rfl
    · rw [if_neg hv, if_neg (fun e => hv ((void_iff hn).1 e))]
      unfold St.opened
      rw [List.map_nil, List.append_nil]
      rfl
  cases hns : simpleStartNow { name := name, a := C.plan.action name, attrs := as, sc := false, pos := rest, allowed := flag (C.plan.action name) (·.allowed), foreign := false } C s with
  | true =>
    have hnf : formatting.contains name = false := by
      refine hC.simpleStart name a ha1 ?_
      unfold simpleStartNow at hns
      simp only [Bool.and_eq_true] at hns
      have := hns.1.1.1.1.1
      rw [ha1] at this
      exact this
    refine ⟨s.framesetBlocked, s.fmtDirty, s.fmtNext, [], by unfold EntryFor; rw [hnf]; rfl, ?_⟩
    refine hst _ ?_
    unfold safeTests
    refine chainR_done (retIf_pos hns ?_)
    rw [flow_simpleStart _ ha hvoid]
    exact congrArg (Prod.mk ()) (gen s.framesetBlocked _ rfl)
  | false =>
    by_cases hf : formatting.contains name = true
    · obtain ⟨b, s', ⟨d, k, f, g1, g2⟩, g3⟩ := flow_safeTests hC h (name ++ (as.flatMap attrText ++ '>' :: rest))
        { name := name, a := C.plan.action name, attrs := as, sc := false, pos := rest, allowed := flag (C.plan.action name) (·.allowed), foreign := false } hn ha hns
        (P := fun b s' => ∃ d k f, EntryFor s name f ∧ s' = { s.opened name as f d k s.fosterWs with framesetBlocked := b }) (by
          intro b
          obtain ⟨d, k, f, g1, g2⟩ := flow_formattingStart_safe (h.blocked b) hn hf hm (hC.listed name a ha1 ha2) as
          exact ⟨_, by rw [if_pos hf]; exact g2, d, k, f, g1, rfl⟩)
      refine ⟨b, d, k, f, g1, ?_⟩
      rw [if_neg (fmt_not_empty hn hf), ← g2]
      exact hst _ g3
    · obtain ⟨b, s', g1, g3⟩ := flow_safeTests hC h (name ++ (as.flatMap attrText ++ '>' :: rest))
        { name := name, a := C.plan.action name, attrs := as, sc := false, pos := rest, allowed := flag (C.plan.action name) (·.allowed), foreign := false } hn ha hns
        (P := fun b s' => s' = (if htmlVoids.contains name then ({ s with framesetBlocked := b } : St).child (elementNode name as (some c%"html"))
          else { ({ s with framesetBlocked := b } : St).child (elementNode name as (some c%"html")) with stack := s.stack ++ [s.heap.length] })) (by
          intro b
          refine ⟨_, ?_, rfl⟩
          rw [if_neg hf]
          exact flow_safeGeneral (h.blocked b) _ hn ha (by rw [ha1]; exact ha2) hm)
      refine ⟨b, s.fmtDirty, s.fmtNext, [], by unfold EntryFor; rw [if_neg hf], ?_⟩
      rw [← gen b s' g1]
      exact hst _ g3

/-! ### End tags -/

theorem flow_fmtEnd (h : Flow C (name :: anc) s) (hf : formatting.contains name = true) : ∃ e, s.adoptFast name = some e ∧
    ((do modS St.pop; retire e.eid) : EM Unit) C s = ((), s.closed name s.fmtDirty) := by
  obtain ⟨es, h1, h2, h3⟩ := h.fmt
  obtain ⟨st, e1, e2⟩ := h.split
  have htop : (s.n s.top).name = name := h.topName_cons
  rw [e1, List.filter_append, List.filter_cons, List.filter_nil, htop, hf] at h3
  have hes : es ≠ [] := by rintro rfl; simp at h3
  have hlast : (es.getLast hes).node = s.top := by
    have : (es.map (·.node)).getLast? = some s.top := by rw [h3]; simp
    rw [List.getLast?_map, List.getLast?_eq_some_getLast hes] at this
    simpa using this
  have hmem := List.getLast_mem hes
  have hl : s.fmt.getLast? = some (some (es.getLast hes)) := by rw [h1, List.getLast?_map, List.getLast?_eq_some_getLast hes]; rfl
  refine ⟨es.getLast hes, ?_, ?_⟩
  · unfold St.adoptFast
    rw [hl]
    dsimp only
    rw [if_pos]
    rw [(h2 _ hmem).1, (h2 _ hmem).2, hlast, htop]
    simp
  show ((), if lastIs s.pop.fmt (es.getLast hes).eid then { s.pop with fmt := s.pop.fmt.dropLast } else _) = ((), s.closed name s.fmtDirty)
  have : lastIs s.pop.fmt (es.getLast hes).eid = true := by
    unfold lastIs
    show (match s.fmt.getLast? with | some (some e) => decide (e.eid = (es.getLast hes).eid) | _ => false) = true
    rw [hl]
    simp
  rw [if_pos this]
  unfold St.closed
  rw [hf]
  rfl

theorem flow_compiledEndTests (hC : SafeC C) (h : Flow C (name :: anc) s) (hv : name ∉ emptyNames) :
    ∃ d, chain (compiledEndTests name (C.plan.action name)) C s = ((), s.closed name d) := by
  have hn : name ∉ ownRules := h.anc name (by simp)
  have ha := hC.tame name hn
  have hne : ∀ x ∈ ownRules, name ≠ x := fun x hx => own_ne hn hx
  have hx : ∀ x ∈ ownRules, (decide (name = x)) = false := fun x hx => by simp [hne x hx]
  have hbr : name ≠ c%"br" := fun e => hv (by rw [e]; decide)
  have htop : (s.n s.top).name = name := h.topName_cons
  unfold compiledEndTests
  cases hs : simpleEndNow name (C.plan.action name) C s with
  | true =>
    have hnf : formatting.contains name = false := by
      unfold simpleEndNow at hs
      simp only [Bool.and_eq_true] at hs
      have := hs.1.1.1.1.1
      cases ha : C.plan.action name with
      | none => rw [ha] at this; cases this
      | some a => rw [ha] at this; exact hC.simpleEnd name a ha this
    refine ⟨s.fmtDirty, chain_done (doneIf_pos hs ?_)⟩
    unfold modS St.pop St.closed
    rw [hnf]
    rfl
  | false =>
    rw [chain_next (doneIf_neg hs)]
    by_cases hf : formatting.contains name = true
    · obtain ⟨e, g1, g2⟩ := flow_fmtEnd h hf
      refine ⟨s.fmtDirty, chain_done (doneIf_pos ?_ ?_)⟩
      · have hfm := ha.fmt
        unfold isFmt at hfm
        unfold fmtEndNow
        rw [g1, hfm, hf, h.po, h.noscript, h.frameset]
        rfl
      · rw [q_bind, g1]
        exact g2
    · rw [Bool.not_eq_true] at hf
      have hfm := ha.fmt
      rw [hf] at hfm
      have hfe : fmtEndNow name (C.plan.action name) C s = false := by
        unfold isFmt at hfm
        unfold fmtEndNow
        rw [hfm]; rfl
      rw [chain_next (doneIf_neg hfe)]
      rw [chain_next (doneIf_neg (by rw [hx c%"html" (by decide), hx c%"body" (by decide)]; simp))]
      rw [chain_next (doneIf_neg (by rw [hx c%"head" (by decide)]; simp))]
      rw [chain_next (doneIf_neg (by rw [hx c%"colgroup" (by decide)]; rfl))]
      rw [chain_next (stepIf_same (flow_endClosesCell hn))]
      rw [chain_next (doneIf_neg (hx c%"template" (by decide)))]
      rw [chain_next (show iteQ _ _ (pure false) C s = (false, s) from iteQ_neg (by rw [h.po]; rfl))]
      rw [chain_next (doneIf_neg (by rw [h.frameset]; rfl))]
      have e14 : endInHead name C s = false := by
        have := h.notHead
        unfold endInHead
        revert this
        cases C.fragment <;> simp
        intro h1 h2 h3
        exact absurd h3 h1
      rw [chain_next (doneIf_neg e14)]
      rw [chain_next (stepIf_neg (by unfold brLeavesHead; simp [hbr]))]
      have e16 : endNoscript name C s = (false, s) := iteQ_neg h.noscript
      rw [chain_next e16]
      rw [chain_next (doneIf_neg (by simp [hbr]))]
      by_cases hh : headings.contains name = true
      · obtain ⟨d, hd⟩ := flow_endHeading h hh
        exact ⟨d, chain_done (doneIf_pos hh hd)⟩
      · rw [Bool.not_eq_true] at hh
        rw [chain_next (doneIf_neg hh), chain_next (doneIf_neg hfm)]
        refine ⟨s.fmtDirty, chain_done (doneIf_pos ?_ ?_)⟩
        · rw [h.po, h.ctx]
          unfold St.topName
          rw [htop]
          simp
        · have : (tableCells.contains name || markerTags.contains name) = false := by
            rw [sub_own (l := tableCells) (by decide) hn, sub_own (l := markerTags) (by decide) hn]; rfl
          refine (bind_val (whQ_neg this)).trans ?_
          unfold modS St.pop St.closed
          rw [hf]
          rfl

/-- The end tag of the innermost element. -/
theorem flow_safeEndTag (hC : SafeC C) (h : Flow C (name :: anc) s) (hp : PlainTag name) (hv : name ∉ emptyNames) (rest : Str) :
    ∃ d, safeEndTag (name ++ '>' :: rest) C s = (rest, s.closed name d) := by
  obtain ⟨d, hd⟩ := flow_compiledEndTests hC h hv
  refine ⟨d, ?_⟩
  have hsp := splitName_plain hp (rest := '>' :: rest) (by intro c hc; cases hc; rfl)
  have hal : ∃ c r, name ++ '>' :: rest = c :: r ∧ isAsciiLetter c = true := by
    obtain ⟨c, r, e, h1, h2⟩ := hp.1
    exact ⟨c, r ++ '>' :: rest, by rw [e]; rfl, by simp [isAsciiLetter, h1, h2]⟩
  have hgn : compiledName C name = name := by
    unfold compiledName
    rw [fold_plain C hp.2, ite_self]
  obtain ⟨c, r, e, hc⟩ := hal
  rw [e] at hsp ⊢
  unfold safeEndTag
  refine (iteQ_neg (by rw [h.foreignSeen]; rfl)).trans ?_
  have e0 : (modS fun s => { s with foreignSeen := false }) C s = ((), s) := by
    have : ({ s with foreignSeen := false } : St) = s := by rw [← h.foreignSeen]
    exact congrArg (Prod.mk ()) this
  refine (bind_val e0).trans ?_
  unfold compiledEndTag
  dsimp only
  rw [if_neg (by simp [hc]), hsp]
  have e1 : markInitial C s = ((), s) := congrArg (Prod.mk ()) (if_neg h.quirks)
  rw [q_bind, hgn, q_bind]
  refine (bind_val e1).trans ?_
  refine (bind_val hd).trans ?_
  rfl

/-- A sanitizing parse reads every good node that the policy leaves alone. -/
theorem SafeC.reader (hC : SafeC C) : Reader C (fun t => C.plan.stripInvisible = true → stripInvisible t = t) (fun _ => C.plan.dropComments = false) (LeftAlone C) where
  text := by
    intro anc s t hF h1 h2 hi hl
    obtain ⟨d, h⟩ := flow_textRun hF (by rcases hC.ctx with e | e <;> rw [e] <;> simp) h1 h2 hi hl
    exact ⟨_, h, hF.child (textNode t) d s.fmtNext 0, rfl, rfl, rfl, rfl, rfl, rfl, rfl, rfl⟩
  comment := by
    intro anc s d rest hF h1 h2
    refine ⟨({ s with fosterWs := 0 } : St).child (commentNode d), ?_, hF.child (commentNode d) s.fmtDirty s.fmtNext 0, rfl, rfl, rfl, rfl, rfl, rfl, rfl, rfl⟩
    rw [markup_comment, flow_comment hF.foster0 h2 h1]
  start := by
    intro anc s name as rest hF h1 h2 h3 h4 h5
    obtain ⟨b, d, k, f, g1, g2⟩ := flow_safeStartTag hC hF.foster0 h1 h2 h3 h4 h5 rest
    rw [markup_start_safe hF hC.safe h1, g2]
    by_cases hv : name ∈ emptyNames
    · rw [if_pos hv]
      refine ⟨_, rfl, rfl, ⟨rfl, rfl, rfl, rfl, rfl, rfl⟩, ?_⟩
      rw [if_pos hv]
      exact ⟨(hF.child (elementNode name as (some c%"html")) d s.fmtNext 0).blocked b, rfl⟩
    · rw [if_neg hv]
      refine ⟨_, rfl, rfl, ⟨rfl, rfl, rfl, rfl, rfl, rfl⟩, ?_⟩
      rw [if_neg hv]
      exact ⟨(hF.foster0.opened h2 as g1 d k 0).blocked b, rfl⟩
  stop := by
    intro anc s name rest hF h1 h2 _
    obtain ⟨d, h⟩ := flow_safeEndTag hC hF.foster0 h1 h2 rest
    rw [markup_end_safe hF hC.safe, h]
    exact ⟨_, rfl, hF.foster0.closed d, rfl, rfl, rfl, rfl, rfl, rfl, rfl, rfl⟩

end JH.Eng
