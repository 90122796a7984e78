import Verif.Lemmas.EngFlowOps
import Verif.Lemmas.EngRead

/-! Text in ordinary content (C81). -/
namespace JH.Eng
open JH.Spec

variable {C : Cfg} {anc : List Str} {s : St}

theorem iteQ_neg {α : Type} {c : Cfg → St → Bool} {m₁ m₂ : EM α} (h : c C s = false) : iteQ c m₁ m₂ C s = m₂ C s := by
  unfold iteQ; rw [h]; rfl

theorem iteQ_pos {α : Type} {c : Cfg → St → Bool} {m₁ m₂ : EM α} (h : c C s = true) : iteQ c m₁ m₂ C s = m₁ C s := by
  unfold iteQ; rw [h]; rfl

theorem whQ_neg {c : Cfg → St → Bool} {m : EM Unit} (h : c C s = false) : whQ c m C s = ((), s) := by
  unfold whQ; rw [h]; rfl

theorem whQ_pos {c : Cfg → St → Bool} {m : EM Unit} (h : c C s = true) : whQ c m C s = m C s := by
  unfold whQ; rw [h]; rfl

theorem q_bind {α β : Type} (f : Cfg → St → α) (k : α → EM β) : (q f >>= k) C s = k (f C s) C s := rfl

theorem orErr_bind {β : Type} {f : Cfg → Option Str} {t : Str} (h : f C = some t) (k : Str → EM β) : (orErr f >>= k) C s = k t C s := by
  rw [bind_eq]; unfold orErr; rw [h]

theorem n_big (s : St) {i : Nat} (h : s.heap.length ≤ i) : (s.n i).kind = .text := by
  unfold St.n
  rw [List.getD_eq_getElem?_getD, List.getElem?_eq_none h]
  rfl

/-- The last child of the current node is not a text. -/
def LastOk (s : St) : Prop := ∀ l, (s.n s.top).children.getLast? = some l → (s.n l).kind ≠ .text

theorem appendNew_child (h : Flow C anc s) (n : ENode) (hl : n.kind = .text → LastOk s) : appendNew s.top n C s = ((), s.child n) := by
  unfold appendNew St.child
  congr 1
  have ho : (s.add n).older s.top s.heap.length = s.top := if_pos h.top_lt
  rw [ho]
  unfold St.append
  rw [n_add_lt _ _ h.top_lt]
  cases hc : (s.n s.top).children.getLast? with
  | none => rfl
  | some l =>
    dsimp only
    have h3 : (s.add n).isText s.heap.length = (n.kind = .text) := by simp [St.isText, n_add_eq]
    by_cases hk : n.kind = .text
    · have h1 := hl hk l hc
      have hlt : l < s.heap.length := by
        refine Nat.lt_of_not_le fun hle => h1 (n_big s hle)
      have h2 : (s.add n).isText l = false := by
        unfold St.isText
        rw [n_add_lt _ _ hlt]
        simpa using h1
      rw [h2]
      simp
    · rw [if_neg]
      rw [Bool.and_eq_true]
      rintro ⟨h4, _⟩
      rw [h3] at h4
      exact hk h4

theorem escapeText_no {x : Char} (hx : x = '\r' ∨ x = '\x00') {t : Str} (h : x ∉ t) : x ∉ escapeText t := by
  rw [escapeText_eq]
  simp only [List.mem_flatMap, not_exists, not_and]
  intro c hc
  unfold esc1
  repeat' split
  all_goals first
    | (rcases hx with rfl | rfl <;> decide)
    | (simp only [List.mem_singleton]; rintro rfl; exact h hc)

/-- The text is decoded to what was escaped. -/
theorem decode_text (C : Cfg) {t : Str} (hp : PlainText t) (hi : C.plan.stripInvisible = true → stripInvisible t = t) (r : Str) :
    (if (replaceC '\x00' r (newlines (escapeText t))).contains '&' then decodeEntities C.E.U C.T false (replaceC '\x00' r (newlines (escapeText t)))
      else some (replaceC '\x00' r (newlines (escapeText t)))).map (fun t => if C.plan.stripInvisible then stripInvisible t else t) = some t := by
  rw [newlines_of (escapeText_no (.inl rfl) hp.1), replaceC_of_not_mem (escapeText_no (.inr rfl) hp.2)]
  have h := C01_text_roundtrip C.E.U C.T t
  have e : (if (escapeText t).contains '&' then decodeEntities C.E.U C.T false (escapeText t) else some (escapeText t)) = some t := by
    split
    · exact h
    · rename_i hc
      have hc' : '&' ∉ escapeText t := by simpa using hc
      rw [← h, C14_no_amp_unchanged C.E.U C.T false _ hc']
  rw [e, Option.map_some]
  split
  · rename_i h; rw [hi h]
  · rfl

theorem flow_textInitial (h : Flow C anc s) (raw : Str) : textInitial raw C s = (some raw, s) := by
  unfold Eng.textInitial iteQ
  rw [if_pos (by simpa using h.quirks)]
  rfl

theorem flow_textModes (h : Flow C anc s) (hc : C.ctxName ≠ some c%"colgroup") (raw : Str) : textModes raw C s = (true, s) := by
  unfold Eng.textModes iteQ
  simp [h.frameset, hc, St.tmode, h.tmodes]
  rfl

theorem flow_textColgroup (h : Flow C anc s) (raw : Str) (pend : Nat) : textColgroup raw pend C s = (⟨raw, s.top, none, pend⟩, s) := by
  unfold Eng.textColgroup
  rw [q_bind]
  refine (iteQ_neg (by rw [h.colgroup]; rfl)).trans ?_
  show (TextLoc.mk raw s.curParent none pend, s) = _
  rw [h.curParent]

theorem foster_top (h : Flow C anc s) : fosterTargets.contains (s.n s.top).name = false := by
  have : (s.n s.top).name ∉ fosterTargets := by
    intro hm
    exact h.name_ne h.top_mem (x := (s.n s.top).name) (by revert hm; generalize (s.n s.top).name = x; simp [fosterTargets, ownRules]; grind)
      (by rintro e; rw [e] at hm; revert hm; decide) (by rintro e; rw [e] at hm; revert hm; decide) rfl
  simpa using this

theorem Flow.dirty (h : Flow C anc s) (d : Bool) : Flow C anc { s with fmtDirty := d } := h.counters d s.fmtNext s.fosterWs

theorem flow_textRecon (h : Flow C anc s) (l : TextLoc) (hl : l.parent = s.top) : ∃ d, textRecon l C s = (l, { s with fmtDirty := d }) := by
  unfold Eng.textRecon
  by_cases hd : s.fmtDirty = true
  · refine ⟨false, ?_⟩
    have hcap : (s.n s.top).name ≠ c%"caption" := h.topName_ne (by decide) (by decide) (by decide)
    rw [iteQ_pos (by rw [hl]; simp [hd, hcap]), iteQ_neg (by rw [hl, foster_top h]), bind_eq, h.reconstruct]
    have : ({ s with fmtDirty := false } : St).curParent = s.top := (h.dirty false).curParent
    show ({ l with parent := ({ s with fmtDirty := false } : St).curParent }, _) = _
    rw [this, ← hl]
  · refine ⟨s.fmtDirty, ?_⟩
    rw [iteQ_neg (by simp [hd])]
    rfl

theorem Flow.top_drop (h : Flow C anc s) (hf : C.fragment = false) : s.top ∈ s.stack.drop 2 := by
  have hl : 3 ≤ s.stack.length := by
    have := congrArg List.length h.names
    simp [base, hf] at this
    omega
  unfold St.top
  rw [List.getLastD_eq_getLast?, List.getLast?_eq_some_getLast (len_map_names h), Option.getD_some]
  have : (s.stack.drop 2).getLast (by intro e; have := congrArg List.length e; simp at this; omega) = s.stack.getLast (len_map_names h) := List.getLast_drop _
  rw [← this]
  exact List.getLast_mem _

theorem Flow.notHead (h : Flow C anc s) : (!C.fragment && s.head = some s.top) = false := by
  cases hf : C.fragment with
  | true => rfl
  | false => simpa using ((h.shell hf).2.1 _ (h.top_drop hf)).2

theorem Flow.notHtml (h : Flow C anc s) : (!C.fragment && s.html = some s.top) = false := by
  cases hf : C.fragment with
  | true => rfl
  | false => simpa using ((h.shell hf).2.1 _ (h.top_drop hf)).1

theorem flow_textHead (h : Flow C anc s) (l : TextLoc) (hl : l.parent = s.top) : textHead l C s = (l, s) := by
  unfold Eng.textHead
  rw [iteQ_neg (by rw [hl, h.notHead]; rfl)]
  rfl

theorem flow_textAfterHead (h : Flow C anc s) (l : TextLoc) (hl : l.parent = s.top) : textAfterHead l C s = (l, s) := by
  unfold Eng.textAfterHead
  rw [iteQ_neg (by rw [hl, h.notHtml]; rfl)]
  rfl

theorem flow_textAfterBody (h : Flow C anc s) (l : TextLoc) : textAfterBody l C s = (l, s) := by
  unfold Eng.textAfterBody
  rw [iteQ_neg (by rw [h.after]; simp)]
  rfl

theorem flow_textBodyStart (h : Flow C anc s) (l : TextLoc) : textBodyStart l C s = (some l, s) := by
  unfold Eng.textBodyStart
  rw [iteQ_neg]
  · rfl
  · cases hf : C.fragment with
    | true => simp
    | false => simp [(h.shell hf).1]

theorem flow_textTable (h : Flow C anc s) (l : TextLoc) : textTable l C s = (l, s) := by
  unfold Eng.textTable
  rw [iteQ_neg (by rw [h.colgroup]; rfl)]
  rfl

theorem flow_textChars (h : Flow C anc s) (l : TextLoc) (hl : l.parent = s.top) {t : Str} (hr : l.raw = escapeText t) (hp : PlainText t)
    (hi : C.plan.stripInvisible = true → stripInvisible t = t) : textChars l C s = (t, s) := by
  have e : textChars l C s = (do
    let t ← orErr fun C => (if (replaceC '\x00' (if !isHtmlNs (s.n l.parent).ns && !htmlPoint C.E.U (s.n l.parent) && !mathPoint (s.n l.parent) then c%"\ufffd" else []) (newlines l.raw)).contains '&' then
        decodeEntities C.E.U C.T false (replaceC '\x00' (if !isHtmlNs (s.n l.parent).ns && !htmlPoint C.E.U (s.n l.parent) && !mathPoint (s.n l.parent) then c%"\ufffd" else []) (newlines l.raw))
        else some (replaceC '\x00' (if !isHtmlNs (s.n l.parent).ns && !htmlPoint C.E.U (s.n l.parent) && !mathPoint (s.n l.parent) then c%"\ufffd" else []) (newlines l.raw))).map
          fun t => if C.plan.stripInvisible then stripInvisible t else t
    iteQ (fun _ s => s.ignoreLf) (do
      modS fun s => { s with ignoreLf := false }
      pure (if t.head? = some '\n' then t.tail else t)) (pure t) : EM Str) C s := rfl
  rw [e, hr, orErr_bind (decode_text C hp hi _)]
  rw [iteQ_neg h.lf]
  rfl

theorem flow_textInsert (h : Flow C anc s) (l : TextLoc) (hl : l.parent = s.top) {t : Str} (hr : l.raw = escapeText t) (hne : t ≠ []) (hp : PlainText t)
    (hi : C.plan.stripInvisible = true → stripInvisible t = t) (hlast : LastOk s) : textInsert l C s = ((), s.child (textNode t)) := by
  unfold Eng.textInsert
  rw [bind_eq, flow_textChars h l hl hr hp hi]
  dsimp only
  rw [bind_eq]
  have e1 : iteQ (fun _ s => s.inNoscript && !blank t) (do leaveNoscript; q fun _ s => s.body) (pure l.parent) C s = (s.top, s) := by
    rw [iteQ_neg (by rw [h.noscript]; rfl), hl]
    rfl
  rw [e1]
  dsimp only
  rw [if_neg (by simpa using hne)]
  refine (iteQ_neg (by rw [h.notHtml]; rfl)).trans ?_
  have hb : (fosterTargets.contains (s.n s.top).name && openHtml (s.n s.top).ns) = false := by rw [foster_top h]; rfl
  unfold textPlace
  rw [q_bind, hb]
  show (appendNew s.top (textNode t) >>= fun _ => (pure () : EM Unit)) C s = _
  rw [bind_eq, appendNew_child h (textNode t) (fun _ => hlast)]
  rfl

theorem LastOk.of {s' : St} (hs : LastOk s) (h1 : s'.heap = s.heap) (h2 : s'.stack = s.stack) : LastOk s' := by
  have e1 : s'.top = s.top := by unfold St.top; rw [h2]
  have e2 : ∀ i, s'.n i = s.n i := fun i => by unfold St.n; rw [h1]
  intro l hl
  rw [e1, e2] at hl
  rw [e2]
  exact hs l hl

theorem flow_appendText (h : Flow C anc s) (hc : C.ctxName ≠ some c%"colgroup") {t : Str} (hne : t ≠ []) (hp : PlainText t)
    (hi : C.plan.stripInvisible = true → stripInvisible t = t) (hlast : LastOk s) :
    ∃ d, appendText (escapeText t) C s = ((), { s.child (textNode t) with fmtDirty := d, fosterWs := 0 }) := by
  have h0 : Flow C anc { s with fosterWs := 0 } := h.counters s.fmtDirty s.fmtNext 0
  obtain ⟨d, hd⟩ := flow_textRecon h0 ⟨escapeText t, s.top, none, s.fosterWs⟩ rfl
  have h1 : Flow C anc { s with fosterWs := 0, fmtDirty := d } := h.counters d s.fmtNext 0
  refine ⟨d, ?_⟩
  unfold Eng.appendText
  rw [bind_eq]
  show (do
    modS fun s => { s with fosterWs := 0 }
    match ← textInitial (escapeText t) with
    | none => pure ()
    | some raw => do
      let go ← textModes raw
      if go then do
        let l ← textColgroup raw s.fosterWs
        let l ← textRecon l
        let l ← textHead l
        let l ← textAfterHead l
        let l ← textAfterBody l
        match ← textBodyStart l with
        | none => pure ()
        | some l => do
          let l ← textTable l
          textInsert l
      else pure () : EM Unit) C s = _
  rw [bind_eq]
  show (Eng.textInitial (escapeText t) >>= _ : EM Unit) C { s with fosterWs := 0 } = _
  rw [bind_eq, flow_textInitial h0]
  dsimp only
  rw [bind_eq, flow_textModes h0 hc]
  dsimp only
  rw [if_pos rfl, bind_eq, flow_textColgroup h0]
  dsimp only
  rw [bind_eq]
  have : ({ s with fosterWs := 0 } : St).top = s.top := rfl
  rw [this, hd]
  dsimp only
  rw [bind_eq, flow_textHead h1 _ rfl]
  dsimp only
  rw [bind_eq, flow_textAfterHead h1 _ rfl]
  dsimp only
  rw [bind_eq, flow_textAfterBody h1]
  dsimp only
  rw [bind_eq, flow_textBodyStart h1]
  dsimp only
  rw [bind_eq, flow_textTable h1]
  dsimp only
  rw [flow_textInsert h1 _ rfl rfl hne hp hi (hlast.of rfl rfl)]
  rfl

/-- A run of text becomes a text node. -/
theorem flow_textRun (h : Flow C anc s) (hc : C.ctxName ≠ some c%"colgroup") {t : Str} (hne : t ≠ []) (hp : PlainText t)
    (hi : C.plan.stripInvisible = true → stripInvisible t = t) (hlast : LastOk s) :
    ∃ d, textRun (escapeText t) C s = ((), { s.child (textNode t) with fmtDirty := d, fosterWs := 0 }) := by
  have hne' : (escapeText t).isEmpty = false := by
    cases he : escapeText t with
    | nil => exact absurd (C01_text_injective t [] (by rw [he]; rfl)) hne
    | cons c r => rfl
  unfold Eng.textRun
  rw [whQ_pos (by simp [hne'])]
  by_cases hf : fastTextOk C s = true
  · refine ⟨s.fmtDirty, ?_⟩
    rw [iteQ_pos hf]
    unfold fastText
    have e : cleanText C false (escapeText t) = some t := decode_text C hp hi []
    rw [orErr_bind e, whQ_pos (by simpa using hne), bind_eq]
    show appendNew s.top (textNode t) C s = _
    rw [appendNew_child h _ fun _ => hlast]
    have hw : s.fosterWs = 0 := by
      unfold fastTextOk at hf
      grind
    have : (s.child (textNode t)).fosterWs = 0 := hw
    congr 1
    have e2 : ∀ (s : St) (w : Nat), s.fosterWs = w → s = { s with fmtDirty := s.fmtDirty, fosterWs := w } := by rintro s w rfl; rfl
    exact e2 (s.child (textNode t)) 0 this
  · rw [iteQ_neg (by simpa using hf)]
    exact flow_appendText h hc hne hp hi hlast

end JH.Eng
