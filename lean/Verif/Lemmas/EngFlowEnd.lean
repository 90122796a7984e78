import Verif.Lemmas.EngFlowStart

/-! End tags and comments in ordinary content (C81). -/
namespace JH.Eng
open JH.Spec

variable {C : Cfg} {anc : List Str} {s : St} {name : Str}

theorem chain_next {m : EM Bool} {l : List (EM Bool)} {s' : St} (h : m C s = (false, s')) : chain (m :: l) C s = chain l C s' := by
  rw [chain, bind_eq, h]
  rfl

theorem chain_done {m : EM Bool} {l : List (EM Bool)} {s' : St} (h : m C s = (true, s')) : chain (m :: l) C s = ((), s') := by
  rw [chain, bind_eq, h]
  rfl

theorem doneIf_neg {c : Cfg → St → Bool} {m : EM Unit} (h : c C s = false) : doneIf c m C s = (false, s) := iteQ_neg h

theorem doneIf_pos {c : Cfg → St → Bool} {m : EM Unit} (h : c C s = true) {s' : St} (hm : m C s = ((), s')) : doneIf c m C s = (true, s') := by
  refine (iteQ_pos h).trans ?_
  rw [bind_eq, hm]
  rfl

theorem stepIf_neg {c : Cfg → St → Bool} {m : EM Unit} (h : c C s = false) : stepIf c m C s = (false, s) := by
  unfold stepIf
  rw [bind_eq, whQ_neg h]
  rfl

theorem stepIf_same {c : Cfg → St → Bool} {m : EM Unit} (hm : m C s = ((), s)) : stepIf c m C s = (false, s) := by
  unfold stepIf
  rw [bind_eq, whQ_same hm]
  rfl

/-! ### The innermost element -/

theorem Flow.split (h : Flow C (name :: anc) s) : ∃ st, s.stack = st ++ [s.top] ∧ st.map (fun i => (s.n i).name) = base C ++ anc.reverse := by
  refine ⟨s.stack.dropLast, ?_, ?_⟩
  · unfold St.top
    rw [List.getLastD_eq_getLast?, List.getLast?_eq_some_getLast (len_map_names h), Option.getD_some, List.dropLast_concat_getLast]
  · rw [List.map_dropLast, h.names, List.reverse_cons, ← List.append_assoc, List.dropLast_concat]

theorem Flow.len (h : Flow C (name :: anc) s) : 2 ≤ s.stack.length := by
  have := congrArg List.length h.names
  simp only [List.length_map, List.length_append, List.length_reverse, List.length_cons] at this
  unfold base at this
  split at this <;> simp at this <;> omega

/-- The state after the innermost element is closed. -/
def St.closed (s : St) (name : Str) (d : Bool) : St :=
  { s with stack := s.stack.dropLast, fmt := if formatting.contains name then s.fmt.dropLast else s.fmt, fmtDirty := d }

theorem Flow.closed (h : Flow C (name :: anc) s) (d : Bool) : Flow C anc (s.closed name d) := by
  obtain ⟨st, e1, e2⟩ := h.split
  have ed : s.stack.dropLast = st := by rw [e1, List.dropLast_concat]
  have htop : (s.n s.top).name = name := h.topName_cons
  have hsub : ∀ i ∈ st, i ∈ s.stack := fun i hi => by rw [e1]; exact List.mem_append_left _ hi
  refine ⟨?_, ?_, fun x hx => h.anc x (List.mem_cons_of_mem _ hx), ?_, ?_, h.retired, h.tmodes, h.po, h.mFrameset, h.mColgroup, h.mNoscript, h.mAfter, h.mParserTpl, h.mTpl, h.after,
    h.frameset, h.colgroup, h.noscript, h.reentry, h.foreignSeen, h.selected, h.ctx, h.quirks, h.lf, h.nohead, ?_⟩
  · show s.stack.dropLast.map _ = _
    rw [ed]; exact e2
  · intro i hi
    have hi' : i ∈ st := by rw [← ed]; exact hi
    exact h.nodes i (hsub i hi')
  · show s.stack.dropLast.Nodup
    exact h.nodup.sublist (List.dropLast_sublist _)
  · obtain ⟨es, h1, h2, h3⟩ := h.fmt
    rw [e1, List.filter_append, List.filter_cons, List.filter_nil, htop] at h3
    show ∃ es' : List FEntry, (if formatting.contains name then s.fmt.dropLast else s.fmt) = es'.map some ∧ (∀ e ∈ es', e.active = true ∧ e.name = (s.n e.node).name) ∧
      es'.map (·.node) = s.stack.dropLast.filter fun i => formatting.contains (s.n i).name
    rw [ed]
    by_cases hf : formatting.contains name = true
    · rw [if_pos hf]
      rw [hf] at h3
      refine ⟨es.dropLast, by rw [h1, List.map_dropLast], fun e he => h2 e ((List.dropLast_sublist es).subset he), ?_⟩
      rw [List.map_dropLast, h3]
      simp
    · rw [if_neg hf]
      rw [Bool.not_eq_true] at hf
      rw [hf] at h3
      exact ⟨es, h1, h2, by rw [h3]; simp⟩
  · intro hf
    obtain ⟨h1, h2, h4⟩ := h.shell hf
    refine ⟨h1, fun i hi => h2 i ?_, h4⟩
    have hi' : i ∈ st.drop 2 := by rw [← ed]; exact hi
    rw [e1, List.drop_append]
    exact List.mem_append_left _ hi'

theorem markDirty_eq : ∃ d, markDirty C s = ((), { s with fmtDirty := d }) := by
  unfold markDirty modS
  by_cases hf : s.fmt.isEmpty = true
  · exact ⟨s.fmtDirty, by simp [hf]⟩
  · exact ⟨true, by simp [hf]⟩

theorem scanDown_le (p : Nat → Bool) (l : List Nat) : ∀ (n b : Nat), scanDownFrom p l n = some b → b ≤ n := by
  intro n
  induction n with
  | zero => intro b h; cases h
  | succ n ih =>
    intro b h
    rw [scanDownFrom] at h
    split at h
    · cases h; exact Nat.le_refl _
    · exact Nat.le_succ_of_le (ih b h)

theorem lastIdx_top {p : ENode → Bool} (hl : 2 ≤ s.stack.length) (h : p (s.n s.top) = true) : s.lastIdx p = some (s.stack.length - 1) := by
  unfold St.lastIdx
  obtain ⟨n, hn⟩ : ∃ n, s.stack.length - 1 = n + 1 := ⟨s.stack.length - 2, by omega⟩
  have e : s.stack.getD (n + 1) 0 = s.top := by rw [← hn]; exact getD_last _
  rw [hn, scanDownFrom, e, if_pos h]

theorem lastIdx_below {p : ENode → Bool} (hl : 2 ≤ s.stack.length) (h : p (s.n s.top) = false) {b : Nat} (hb : s.lastIdx p = some b) : b < s.stack.length - 1 := by
  unfold St.lastIdx at hb
  obtain ⟨n, hn⟩ : ∃ n, s.stack.length - 1 = n + 1 := ⟨s.stack.length - 2, by omega⟩
  have e : s.stack.getD (n + 1) 0 = s.top := by rw [← hn]; exact getD_last _
  rw [hn, scanDownFrom, e, h, if_neg (by simp)] at hb
  have := scanDown_le _ _ _ _ hb
  omega

theorem flow_endHeading (h : Flow C (name :: anc) s) (hh : headings.contains name = true) : ∃ d, endHeading C s = ((), s.closed name d) := by
  have hl := h.len
  have htop : (s.n s.top).name = name := h.topName_cons
  have e1 : s.openHeading C.E.U = some (s.stack.length - 1) := by
    unfold St.openHeading
    rw [lastIdx_top hl (by rw [htop]; exact hh)]
    dsimp only
    cases hb : s.lastIdx (scopeStop C.E.U defaultScope) with
    | none => rfl
    | some b =>
      have hs : scopeStop C.E.U defaultScope (s.n s.top) = false := by
        unfold scopeStop
        rw [if_pos h.topHtml, htop]
        have : ∀ x ∈ headings, defaultScope.contains x = false := by decide
        exact this name (by simpa using hh)
      have := lastIdx_below hl hs hb
      dsimp only
      rw [if_pos this]
  obtain ⟨d, hd⟩ := markDirty_eq (C := C) (s := s)
  refine ⟨d, ?_⟩
  unfold endHeading
  rw [q_bind, e1]
  show cutAt (s.stack.length - 1) C s = _
  unfold cutAt
  rw [bind_val hd]
  unfold modS St.cut St.closed
  have : formatting.contains name = false := by
    have : ∀ x ∈ headings, formatting.contains x = false := by decide
    exact this name (by simpa using hh)
  rw [this]
  show ((), ({ s with stack := s.stack.take (s.stack.length - 1), fmtDirty := d } : St)) = _
  rw [← List.dropLast_eq_take]
  rfl

theorem flow_adoption (h : Flow C (name :: anc) s) (hf : formatting.contains name = true) : ∃ d, adoption name C s = ((), s.closed name d) := by
  obtain ⟨es, h1, h2, h3⟩ := h.fmt
  obtain ⟨st, e1, e2⟩ := h.split
  have htop : (s.n s.top).name = name := h.topName_cons
  rw [e1, List.filter_append, List.filter_cons, List.filter_nil, htop, hf] at h3
  have hes : es ≠ [] := by rintro rfl; simp at h3
  have hlast : (es.getLast hes).node = s.top := by
    have : (es.map (·.node)).getLast? = some s.top := by rw [h3]; simp
    rw [List.getLast?_map, List.getLast?_eq_some_getLast hes] at this
    simpa using this
  have hmem := List.getLast_mem hes
  have hl : s.fmt.getLast? = some (some (es.getLast hes)) := by rw [h1, List.getLast?_map, List.getLast?_eq_some_getLast hes]; rfl
  have ea : s.adoptFast name = some (es.getLast hes) := by
    unfold St.adoptFast
    rw [hl]
    dsimp only
    rw [if_pos]
    rw [(h2 _ hmem).1, (h2 _ hmem).2, hlast, htop]
    simp
  refine ⟨s.fmtDirty, ?_⟩
  unfold adoption
  rw [q_bind, ea]
  show ((), if lastIs s.pop.fmt (es.getLast hes).eid then { s.pop with fmt := s.pop.fmt.dropLast } else _) = ((), s.closed name s.fmtDirty)
  have : lastIs s.pop.fmt (es.getLast hes).eid = true := by
    unfold lastIs
    show (match s.fmt.getLast? with | some (some e) => decide (e.eid = (es.getLast hes).eid) | _ => false) = true
    rw [hl]
    simp
  rw [if_pos this]
  unfold St.closed
  rw [hf]
  rfl

theorem flow_endClosesCell (hn : name ∉ ownRules) : endClosesCell name C s = ((), s) := by
  unfold endClosesCell
  rw [if_neg (own_ne hn (by decide))]
  refine whQ_neg ?_
  rw [sub_own (l := tableSections) (by decide) hn]
  simp [own_ne hn (x := c%"tr") (by decide)]

theorem flow_endTests (hC : RawC C) (h : Flow C (name :: anc) s) (hv : name ∉ emptyNames) (ha : Tame name (C.plan.action name)) :
    ∃ d, chain (endTests name (C.plan.action name)) C s = ((), s.closed name d) := by
  have hn : name ∉ ownRules := h.anc name (by simp)
  have hne : ∀ x ∈ ownRules, name ≠ x := fun x hx => own_ne hn hx
  have hsel : s.findOpenHtml c%"select" = none := h.findOpenHtml (by decide) (by decide) (by decide)
  have hbr : name ≠ c%"br" := fun e => hv (by rw [e]; decide)
  have htop : (s.n s.top).name = name := h.topName_cons
  have e0 : endStaysForeign name C s = (false, s) := by
    unfold endStaysForeign
    show (if openHtml (s.n s.top).ns || name = c%"br" || name = c%"p" then (pure false : EM Bool) else _) C s = _
    rw [h.topOpen, if_pos (by simp)]
    rfl
  have main : ∀ s', chain
      [doneIf (fun _ _ => headings.contains name) endHeading,
       doneIf (fun C' s => isFmt (C.plan.action name) && fmtBelowSelect name C' s) (pure ()),
       doneIf (fun _ _ => isFmt (C.plan.action name)) (adoption name),
       doneIf (fun C s => s.tmodes.isEmpty && 1 < s.stack.length && matchesEnd C.E.U (s.n s.top) name && !(s.ctxNode.isSome && s.ctxNode = some s.top)) (do
         markDirty
         whQ (fun _ _ => tableCells.contains name || markerTags.contains name) (clearToMarker true)
         modS St.pop),
       endGeneral name (C.plan.action name)] C s = ((), s') → chain (endTests name (C.plan.action name)) C s = ((), s') := by
    intro s' hs'
    unfold endTests
    have hx : ∀ x ∈ ownRules, (decide (name = x)) = false := fun x hx => by simp [hne x hx]
    have hc2 : (decide (C.ctxName = some c%"html")) = false := by
      rcases hC.ctx with e | e <;> rw [e] <;> decide
    rw [chain_next e0]
    rw [chain_next (show iteQ _ _ (pure false) C s = (false, s) from iteQ_neg (by rw [h.tmodes]; rfl))]
    rw [chain_next (doneIf_neg (by rw [h.frameset]; rfl))]
    rw [chain_next (stepIf_neg (by rw [h.after]; simp))]
    rw [chain_next (doneIf_neg (by rw [hx c%"html" (by decide), hx c%"body" (by decide)]; simp))]
    rw [chain_next (doneIf_neg (by rw [hc2]; simp))]
    rw [chain_next (doneIf_neg (by rw [hx c%"head" (by decide)]; simp))]
    rw [chain_next (doneIf_neg (by rw [hx c%"colgroup" (by decide)]; simp))]
    rw [chain_next (stepIf_neg (by rw [h.colgroup]; rfl))]
    rw [chain_next (stepIf_same (flow_endClosesCell hn))]
    rw [chain_next (doneIf_neg (hx c%"template" (by decide)))]
    rw [chain_next (doneIf_neg (by rw [hx c%"form" (by decide)]; simp))]
    have e12 : endSelect name C s = (false, s) := by
      refine iteQ_neg ?_
      rw [hsel]
      cases s.findOpen name <;> simp [bothLt]
    rw [chain_next e12]
    rw [chain_next (doneIf_neg (by unfold menuitemIgnored; rw [hx c%"menuitem" (by decide)]; simp))]
    have e14 : endInHead name C s = false := by
      have := h.notHead
      unfold endInHead
      revert this
      cases C.fragment <;> simp
      intro h1 h2 h3
      exact absurd h3 h1
    rw [chain_next (doneIf_neg e14)]
    rw [chain_next (stepIf_neg (by unfold brLeavesHead; simp [hbr]))]
    have e16 : endNoscript name C s = (false, s) := iteQ_neg h.noscript
    rw [chain_next e16]
    rw [chain_next (doneIf_neg (by simp [hbr]))]
    rw [chain_next (doneIf_neg (by rw [hx c%"select" (by decide)]; simp))]
    exact hs'
  by_cases hh : headings.contains name = true
  · obtain ⟨d, hd⟩ := flow_endHeading h hh
    exact ⟨d, main _ (chain_done (doneIf_pos hh hd))⟩
  · rw [Bool.not_eq_true] at hh
    by_cases hf : formatting.contains name = true
    · obtain ⟨d, hd⟩ := flow_adoption h hf
      refine ⟨d, main _ ?_⟩
      rw [chain_next (doneIf_neg hh)]
      rw [chain_next (doneIf_neg (by unfold fmtBelowSelect; rw [hsel]; simp))]
      exact chain_done (doneIf_pos (by rw [ha.fmt]; exact hf) hd)
    · rw [Bool.not_eq_true] at hf
      obtain ⟨d, hd⟩ := markDirty_eq (C := C) (s := s)
      refine ⟨d, main _ ?_⟩
      rw [chain_next (doneIf_neg hh)]
      rw [chain_next (doneIf_neg (by rw [ha.fmt, hf]; rfl))]
      rw [chain_next (doneIf_neg (by rw [ha.fmt, hf]))]
      have hl := h.len
      refine chain_done (doneIf_pos ?_ ?_)
      · rw [h.tmodes, h.ctx]
        unfold matchesEnd
        rw [htop]
        simp
        omega
      · refine (bind_val hd).trans ?_
        have : (tableCells.contains name || markerTags.contains name) = false := by
          rw [sub_own (l := tableCells) (by decide) hn, sub_own (l := markerTags) (by decide) hn]; rfl
        refine (bind_val (whQ_neg this)).trans ?_
        unfold modS St.pop St.closed
        rw [hf]
        rfl

/-- The end tag of the innermost element. -/
theorem flow_endTag (hC : RawC C) (h : Flow C (name :: anc) s) (hp : PlainTag name) (hv : name ∉ emptyNames) (rest : Str) :
    ∃ d, endTag (name ++ '>' :: rest) C s = (rest, s.closed name d) := by
  have hn : name ∉ ownRules := h.anc name (by simp)
  obtain ⟨d, hd⟩ := flow_endTests hC h hv (hC.tame hn)
  refine ⟨d, ?_⟩
  have hsp := splitName_plain hp (rest := '>' :: rest) (by intro c hc; cases hc; rfl)
  have hat : allAttrs C ('>' :: rest) = ⟨[], false, rest, true, false⟩ := allAttrs_read C (tag := name) (as := []) ⟨by simp, by simp⟩ rest
  have hal : ∃ c r, name ++ '>' :: rest = c :: r ∧ isAsciiLetter c = true := by
    obtain ⟨c, r, e, h1, h2⟩ := hp.1
    exact ⟨c, r ++ '>' :: rest, by rw [e]; rfl, by simp [isAsciiLetter, h1, h2]⟩
  obtain ⟨c, r, e, hc⟩ := hal
  rw [e] at hsp ⊢
  unfold endTag
  dsimp only
  rw [if_neg (by simp [hc]), hsp]
  have e1 : markInitial C s = ((), s) := congrArg (Prod.mk ()) (if_neg h.quirks)
  rw [q_bind, lower_plain C.E.U hp.2]
  refine (bind_val e1).trans ?_
  rw [q_bind, q_bind, hat]
  refine (bind_val (show noteErr false C s = ((), s) from rfl)).trans ?_
  have e2 : endAsText name name ('>' :: rest) ⟨[], false, rest, true, false⟩ C s = (false, s) := by
    unfold endAsText
    dsimp only
    refine (iteQ_neg (by simp)).trans (doneIf_neg ?_)
    rw [hC.spans]
    simp
  refine (bind_val ((chain_next e2).trans hd)).trans ?_
  rfl

/-! ### Comments -/

theorem commentEnd_data {d : Str} (h1 : isIn c%"--" d = false) (h2 : endsWith c%"-" d = false) (rest : Str) :
    commentEnd (d ++ (c%"-->" ++ rest)) = some d.length := by
  induction d with
  | nil => rfl
  | cons c d ih =>
    have h3 : isIn c%"--" d = false := by
      rw [isIn_false_iff] at h1 ⊢
      exact fun a b e => h1 (c :: a) b (by rw [e]; rfl)
    have h4 : endsWith c%"-" d = false := by
      cases hd : endsWith c%"-" d with
      | false => rfl
      | true =>
        obtain ⟨t, e⟩ := endsWith_iff.1 hd
        have : endsWith c%"-" (c :: d) = true := endsWith_iff.2 ⟨c :: t, by rw [e]; rfl⟩
        rw [this] at h2
        cases h2
    have hstep : commentEnd (c :: (d ++ (c%"-->" ++ rest))) = (commentEnd (d ++ (c%"-->" ++ rest))).map (· + 1) := by
      by_cases hc : c = '-'
      · subst hc
        cases d with
        | nil => exact absurd h2 (by decide)
        | cons x d =>
          by_cases hx : x = '-'
          · subst hx
            exact absurd rfl (isIn_false_iff.1 h1 [] d)
          · rw [List.cons_append, commentEnd]
            rintro r _ e
            exact hx (List.cons.inj e).1
      · rw [commentEnd]
        rintro r e
        exact absurd e hc
    rw [List.cons_append, hstep, ih h3 h4]
    rfl

theorem commentEnd_all {d : Str} (h : PlainComment d) (rest : Str) : commentEnd (c%"--" ++ (d ++ (c%"-->" ++ rest))) = some (d.length + 2) := by
  obtain ⟨_, h1, h2, h3, h4, h5⟩ := h
  show commentEnd ('-' :: '-' :: (d ++ (c%"-->" ++ rest))) = _
  rw [commentEnd, commentEnd_data h1 h5]
  have a1 : startsWith c%">" (d ++ (c%"-->" ++ rest)) = false := by
    cases d with
    | nil => rfl
    | cons c d => simpa [startsWith, List.isPrefixOf] using h2
  have a2 : startsWith c%"!>" (d ++ (c%"-->" ++ rest)) = false := by
    cases d with
    | nil => rfl
    | cons c d =>
      cases d with
      | nil => simp [startsWith, List.isPrefixOf]
      | cons x d => simpa [startsWith, List.isPrefixOf] using h4
  have a3 : startsWith c%"->" (d ++ (c%"-->" ++ rest)) = false := by
    cases d with
    | nil => rfl
    | cons c d =>
      cases d with
      | nil => simp [startsWith, List.isPrefixOf]
      | cons x d => simpa [startsWith, List.isPrefixOf] using h3
  rw [a1, a2, a3]
  rfl

theorem comment_text {d : Str} (h : PlainComment d) : serializeComment d = d := by
  obtain ⟨_, h1, h2, h3, h4, h5⟩ := h
  have e : dashLoop d.length d = d := by
    cases d with
    | nil => rfl
    | cons c d =>
      show (if isIn ['-', '-'] (c :: d) then _ else _) = _
      rw [if_neg (by simp only [Bool.not_eq_true]; exact h1)]
  have h6 : endsWith c%"<!-" d = false := by
    cases hd : endsWith c%"<!-" d with
    | false => rfl
    | true =>
      obtain ⟨t, e⟩ := endsWith_iff.1 hd
      have : endsWith c%"-" d = true := endsWith_iff.2 ⟨t ++ c%"<!", by rw [e, List.append_assoc]; rfl⟩
      rw [this] at h5
      cases h5
  unfold serializeComment
  simp only [e, h2, h3, h6, h5, Bool.or_self, Bool.false_eq_true, if_false]

/-- The node of a comment. -/
def commentNode (d : Str) : ENode := { kind := .comment, name := c%"#comment", data := d }

theorem Flow.headNe (h : Flow C anc s) : s.head ≠ some s.top := by
  cases hf : C.fragment with
  | true => rw [h.nohead hf]; simp
  | false => simpa [hf] using h.notHead

theorem flow_appendMisc (h : Flow C anc s) (d before : Str) : appendMisc (commentNode d) before C s = ((), s.child (commentNode d)) := by
  have hcp := h.curParent
  have h0 : s.bodyFresh = false ∨ C.fragment = true := by
    cases hf : C.fragment with
    | true => exact Or.inr rfl
    | false => exact Or.inl (by unfold St.bodyFresh; rw [(h.shell hf).1]; rfl)
  have hh := h.headNe
  unfold appendMisc
  refine (bind_val (whQ_neg (by rw [h.after]; rfl))).trans ?_
  refine (iteQ_neg (by
    unfold miscInHead
    rw [hcp]
    rcases h0 with e | e <;> rw [e] <;> simp [hh])).trans ?_
  refine (iteQ_neg (by rw [h.after]; simp)).trans ?_
  refine (iteQ_neg (by rw [h.after]; simp)).trans ?_
  refine (iteQ_neg (by
    unfold miscBeforeRoot
    rcases h0 with e | e <;> rw [e] <;> simp [h.quirks])).trans ?_
  refine (iteQ_neg (by
    unfold miscInHtml
    rcases h0 with e | e <;> rw [e] <;> simp)).trans ?_
  rw [q_bind, hcp]
  exact appendNew_child h _ (fun e => by cases e)

theorem flow_comment (h : Flow C anc s) (hc : C.plan.dropComments = false) {d : Str} (hp : PlainComment d) (rest : Str) :
    rangeComment (c%"--" ++ (d ++ (c%"-->" ++ rest))) C s = (rest, s.child (commentNode d)) := by
  unfold rangeComment
  rw [commentEnd_all hp]
  dsimp only
  have e1 : startsWith c%"!>" ((c%"--" ++ (d ++ (c%"-->" ++ rest))).drop (d.length + 2 + 1)) = false := by
    have : (c%"--" ++ (d ++ (c%"-->" ++ rest))).drop (d.length + 2 + 1) = c%"->" ++ rest := by
      rw [List.drop_append, List.drop_append, List.drop_append]
      simp
    rw [this]
    rfl
  have e2 : ((c%"--" ++ (d ++ (c%"-->" ++ rest))).take (d.length + 2)).drop 2 = d := by
    show (('-' :: '-' :: (d ++ (c%"-->" ++ rest))).take (d.length + 1 + 1)).drop 2 = d
    rw [List.take_succ_cons, List.take_succ_cons]
    simp
  have e3 : (c%"--" ++ (d ++ (c%"-->" ++ rest))).drop (d.length + 2 + 3) = rest := by
    rw [← List.append_assoc, ← List.append_assoc, List.drop_append, List.drop_eq_nil_of_le (by simp)]
    simp
  rw [e1, if_neg (by simp), e2, e3]
  have e4 : nulFix (newlines d) = d := by rw [newlines_of hp.1.1, nulFix_of hp.1.2]
  have e5 : whQ (fun C _ => !C.plan.dropComments) (fun C => appendComment d (beforeLt C (c%"--" ++ (d ++ (c%"-->" ++ rest)))) C) C s = ((), s.child (commentNode d)) := by
    refine (whQ_pos (by rw [hc]; rfl)).trans ?_
    unfold appendComment
    rw [e4]
    exact flow_appendMisc h d _
  exact (bind_val e5).trans rfl

end JH.Eng
