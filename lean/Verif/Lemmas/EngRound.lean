import Verif.Lemmas.EngForest

/-! The steps of a raw parse, and the beginning and the end of a fragment parse (C81). -/
namespace JH.Eng
open JH.Spec

variable {C : Cfg} {anc : List Str} {s : St}

theorem Flow.foster0 (h : Flow C anc s) : Flow C anc { s with fosterWs := 0 } := h.counters s.fmtDirty s.fmtNext 0

theorem resetLf_no (h : Flow C anc s) (b : Bool) : resetLf b C s = ((), s) := by
  exact congrArg (Prod.mk ()) (if_neg (by simp [h.lf]))

theorem RawC.notSafe (hC : RawC C) : useSafe C = false := by unfold useSafe; rw [hC.raw]; rfl

theorem markup_start (h : Flow C anc s) (hs : useSafe C = false) {name : Str} (hp : PlainTag name) (x : Str) :
    rangeMarkup (name ++ x) C s = startTag (name ++ x) C { s with fosterWs := 0 } := by
  obtain ⟨c, r, e, h1, h2⟩ := hp.1
  have hc : isAsciiLetter c = true := by simp [isAsciiLetter, h1, h2]
  have hne : c ≠ '/' := by rintro rfl; simp [isAsciiLetter] at hc
  rw [e, List.cons_append, rangeMarkup, if_neg hne, if_pos hc]
  unfold rangeStart
  refine (bind_val (show (modS fun s => { s with fosterWs := 0 }) C s = ((), { s with fosterWs := 0 }) from rfl)).trans ?_
  refine (bind_val (resetLf_no h.foster0 _)).trans ?_
  exact iteQ_neg hs

theorem markup_end (h : Flow C anc s) (hs : useSafe C = false) (x : Str) : rangeMarkup ('/' :: x) C s = endTag x C { s with fosterWs := 0 } := by
  rw [rangeMarkup, if_pos rfl]
  unfold rangeEnd
  refine (bind_val (show (modS fun s => { s with fosterWs := 0 }) C s = ((), { s with fosterWs := 0 }) from rfl)).trans ?_
  refine (bind_val (resetLf_no h.foster0 _)).trans ?_
  exact iteQ_neg hs

theorem markup_comment (x : Str) : rangeMarkup ('!' :: (c%"--" ++ x)) C s = rangeComment (c%"--" ++ x) C { s with fosterWs := 0 } := by
  rw [rangeMarkup, if_neg (by decide), if_neg (by decide), if_pos rfl]
  unfold rangeBang
  refine (bind_val (show (modS fun s => { s with fosterWs := 0 }) C s = ((), { s with fosterWs := 0 }) from rfl)).trans ?_
  rw [if_pos (by rfl)]

theorem RawC.colgroup (hC : RawC C) : C.ctxName ≠ some c%"colgroup" := by
  rcases hC.ctx with e | e <;> rw [e] <;> simp

/-- A raw parse reads every good node. -/
theorem RawC.reader (hC : RawC C) : Reader C (fun _ => True) (fun _ => True) (fun _ _ => True) where
  text := by
    intro anc s t hF h1 h2 _ hl
    obtain ⟨d, h⟩ := flow_textRun hF hC.colgroup h1 h2 (by rw [hC.strip]; simp) hl
    exact ⟨_, h, hF.child (textNode t) d s.fmtNext 0, rfl, rfl, rfl, rfl, rfl, rfl, rfl, rfl⟩
  comment := by
    intro anc s d rest hF h1 _
    refine ⟨({ s with fosterWs := 0 } : St).child (commentNode d), ?_, hF.child (commentNode d) s.fmtDirty s.fmtNext 0, rfl, rfl, rfl, rfl, rfl, rfl, rfl, rfl⟩
    rw [markup_comment, flow_comment hF.foster0 hC.comments h1]
  start := by
    intro anc s name as rest hF h1 h2 h3 h4 _
    obtain ⟨b, d, k, f, g1, g2⟩ := flow_startTag hC hF.foster0 h1 h2 h3 h4 rest
    rw [markup_start hF hC.notSafe h1, g2]
    by_cases hv : name ∈ emptyNames
    · rw [if_pos hv]
      refine ⟨_, rfl, rfl, ⟨rfl, rfl, rfl, rfl, rfl, rfl⟩, ?_⟩
      rw [if_pos hv]
      exact ⟨(hF.child (elementNode name as (some c%"html")) d s.fmtNext 0).blocked b, rfl⟩
    · rw [if_neg hv]
      refine ⟨_, rfl, rfl, ⟨rfl, rfl, rfl, rfl, rfl, rfl⟩, ?_⟩
      rw [if_neg hv]
      exact ⟨(hF.foster0.opened h2 as g1 d k 0).blocked b, rfl⟩
  stop := by
    intro anc s name rest hF h1 h2 _
    obtain ⟨d, h⟩ := flow_endTag hC hF.foster0 h1 h2 rest
    rw [markup_end hF hC.notSafe, h]
    exact ⟨_, rfl, hF.foster0.closed d, rfl, rfl, rfl, rfl, rfl, rfl, rfl, rfl⟩

/-! ### The beginning and the end -/

/-- The state after the root of a fragment has been made. -/
def fragStart : St := { quirks := .noQuirks, heap := [{ kind := .fragment, name := c%"#document-fragment" }], doc := 0, body := 0, stack := [0] }

theorem fragStart_flow (hf : C.fragment = true) : Flow C [] fragStart where
  names := by unfold base; rw [if_pos hf]; rfl
  nodes := by
    intro i hi
    have : i = 0 := by simpa [fragStart] using hi
    subst this
    exact ⟨by decide, by decide, by decide, by decide⟩
  anc := by simp
  nodup := by decide
  fmt := ⟨[], rfl, by simp, by decide⟩
  retired := rfl
  tmodes := rfl
  po := rfl
  mFrameset := rfl
  mColgroup := rfl
  mNoscript := rfl
  mAfter := rfl
  mParserTpl := rfl
  mTpl := rfl
  after := rfl
  frameset := rfl
  colgroup := rfl
  noscript := rfl
  reentry := rfl
  foreignSeen := rfl
  selected := rfl
  ctx := rfl
  quirks := by decide
  lf := rfl
  nohead := fun _ => rfl
  shell := fun h => by rw [hf] at h; cases h

/-- The last steps do nothing. -/
theorem finish_same (h : Flow C anc s) (h1 : s.toDrop = []) (h2 : s.toUnwrap = []) : finish C s = ((), s) := by
  unfold finish
  refine (bind_val (show finishShell C s = ((), s) from whQ_neg (by rw [h.frameset]; simp))).trans ?_
  refine (bind_val (whQ_neg h.selected)).trans ?_
  refine (bind_val (show dropAll C s = ((), s) from ?_)).trans ?_
  · unfold dropAll
    rw [q_bind, h1]
    rfl
  refine (bind_val (show unwrapAll C s = ((), s) from ?_)).trans ?_
  · unfold unwrapAll
    rw [q_bind, h2]
    rfl
  unfold finishContext
  rw [h.ctx]

/-- A fragment parse of the markup of a good forest yields the forest. -/
theorem fragment_reads {pt pc : Str → Prop} {pe : Str → Attrs → Prop} (R : Reader C pt pc pe) (hf : C.fragment = true) (hc : C.ctxName = some c%"div")
    (ht : textContext C = false) {forest : List Node} (hg : GoodL [] forest) (he : EveryL pt pc pe forest) (hh : C.html = outL forest) : result C = .doc forest := by
  obtain ⟨s', g1, g2, g3⟩ := read_forest R forest [] fragStart [] (fragStart_flow hf) hg he (Or.inl rfl) (fun _ l hl => by cases hl)
  rw [List.append_nil] at g1
  have hroot : buildRoot C (init C) = ((), fragStart) := by
    unfold buildRoot init
    rw [q_bind, if_pos hf, if_pos hf]
    rfl
  have hsetup : setup C fragStart = ((), fragStart) := by
    unfold setup
    refine (iteQ_neg (by rw [hf]; rfl)).trans ((iteQ_neg (by rw [hc]; simp)).trans (whQ_neg (by rw [hc]; decide)))
  have hloop : parseRange C fragStart = ((), s') := by
    unfold parseRange
    rw [hh]
    obtain ⟨m, _, e⟩ := g1 (outL forest).length (Nat.le_refl _)
    rw [e]
    cases m <;> rfl
  have hrun : run C = s' := by
    have : parse C (init C) = ((), s') := by
      unfold parse
      refine (bind_val hroot).trans ((iteQ_neg (by rw [ht]; simp)).trans ?_)
      refine (bind_val hsetup).trans ((bind_val hloop).trans ?_)
      exact finish_same g2 g3.kept.drop g3.kept.unwrap
    unfold run
    rw [this]
  unfold result
  rw [hrun, g3.kept.doc]
  obtain ⟨ids, e1, e2⟩ := g3.top
  show treeF s' (s'.heap.length + 1) 0 = _
  have e1' : s'.n 0 = { kind := .fragment, name := c%"#document-fragment", children := ids } := e1
  rw [treeF, e1']
  dsimp only
  rw [treeL_rep forest 1 ids s'.heap.length (by omega) e2]

end JH.Eng
