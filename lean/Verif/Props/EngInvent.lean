import Verif.Props.EngSafe

/-! C80: the parser makes up no elements. -/
namespace JH.Eng

set_option maxRecDepth 100000
seal result

section
variable {C : Cfg}

theorem tagStop_ends {c : Char} (h : isTagStop c = true) : Spec.endsName c := by
  unfold isTagStop isTagNameStop at h
  simp only [Bool.or_eq_true, decide_eq_true_eq] at h
  unfold Spec.endsName
  simp only [List.mem_cons, List.not_mem_nil, or_false]
  grind

theorem ends_tagStop {c : Char} (h : Spec.endsName c) : isTagStop c = true := by
  unfold Spec.endsName at h
  simp only [List.mem_cons, List.not_mem_nil, or_false] at h
  unfold isTagStop isTagNameStop
  simp only [Bool.or_eq_true, decide_eq_true_eq]
  grind

theorem mem_takeWhile {α : Type} {p : α → Bool} : ∀ {l : List α} {x : α}, x ∈ l.takeWhile p → p x = true
  | [], _, h => absurd h (by simp)
  | a :: l, x, h => by
    rw [List.takeWhile_cons] at h
    split at h
    · next ha =>
      rcases List.mem_cons.1 h with rfl | h
      · exact ha
      · exact mem_takeWhile h
    · exact absurd h (by simp)

theorem lowerA_adjust (y : Str) : lowerA (adjust svgTagAdjust y) = lowerA y := by
  unfold adjust
  cases h : svgTagAdjust.lookup y with
  | none => rfl
  | some v =>
    have key : ∀ p ∈ svgTagAdjust, lowerA p.2 = lowerA p.1 := by decide +kernel
    exact key _ (lookup_mem h)

theorem compiledName_cases (raw : Str) : compiledName C raw = raw ∨ compiledName C raw = lowerA raw ∨ compiledName C raw = C.E.U.lower raw := by
  unfold compiledName
  split
  · exact .inl rfl
  · unfold foldName
    split
    · exact .inr (.inl rfl)
    · exact .inr (.inr rfl)

/-- The name of a start tag is in the input. -/
theorem Occurs.spec {y : Str} (h : Occurs C y) {name : Str} (hn : lowerA name = lowerA y) : Spec.TagOccurs C.E.U C.html name := by
  obtain ⟨s, ⟨⟨pre, hp⟩, c, r, rfl, hc⟩, hy⟩ := h
  refine ⟨pre, (splitName (c :: r)).1, (splitName (c :: r)).2, by rw [splitName_append, hp], ⟨c, r.takeWhile (fun x => !isTagStop x), rfl, ?_, ?_⟩, ?_, ?_⟩
  · unfold isAsciiLetter at hc
    simpa only [Bool.or_eq_true, Bool.and_eq_true, decide_eq_true_eq] using hc
  · intro x hx he
    have := mem_takeWhile hx
    rw [ends_tagStop he] at this
    exact absurd this (by simp)
  · intro x hx
    have : (r.dropWhile (fun x => !isTagStop x)).head? = some x := hx
    have h2 := List.head?_dropWhile_not (fun x => !isTagStop x) r
    rw [this] at h2
    exact tagStop_ends (by simpa using h2)
  · refine ⟨compiledName C (splitName (c :: r)).1, compiledName_cases _, ?_⟩
    rcases hy with hy | hy
    · exact .inl (by rw [hn, hy])
    · exact .inr (by rw [hn, hy]; rfl)

theorem Named.from {y : Str} (h : Named C y) (own : List Str) (ho : ∀ x ∈ [c%"p", c%"br", c%"tbody", c%"tr", c%"colgroup"], x ∈ own) (ns : Str) :
    elName ns y ∈ own ∨ Spec.TagOccurs C.E.U C.html (elName ns y) ∨ (elName ns y = c%"img" ∧ Spec.TagOccurs C.E.U C.html c%"image") := by
  have hl : lowerA (elName ns y) = lowerA y := by
    unfold elName
    split
    · exact lowerA_adjust y
    · rfl
  obtain ⟨h | h | ⟨rfl, h⟩⟩ := h
  · left
    have : elName ns y = y := by
      have key : ∀ x ∈ [c%"p", c%"br", c%"tbody", c%"tr", c%"colgroup"], adjust svgTagAdjust x = x := by decide +kernel
      unfold elName
      split
      · exact key y h
      · rfl
    rw [this]
    exact ho y h
  · exact .inr (.inl (h.spec hl))
  · right; right
    refine ⟨?_, h.spec rfl⟩
    unfold elName
    split
    · decide +kernel
    · rfl

/-- The names after a parse, from those at its start. -/
theorem run_from [Ok C] (own : List Str) (ho : ∀ x ∈ [c%"p", c%"br", c%"tbody", c%"tr", c%"colgroup"], x ∈ own) (s : St)
    (ht : (C.fragment && textContext C) = false) (hs : (setup C (buildRoot C (init C)).2).2 = s) (hf : s.fmt = [])
    (h0 : ∀ x ∈ s.heads, (x.1 ≠ .element ∧ x.1 ≠ .template) ∨ x.2.1 ∈ own) : Spec.Everywhere (Spec.NameFrom C.E.U C.html own) (result C) := by
  unfold result
  refine treeF_all trivial (fun i kids tpl content => ?_) _ _
  have st := parseRange_steps (C := C) s
  have hsrc := st.sourced (A := fun _ => True) trivial (fun _ _ => trivial) (fun _ _ _ _ _ => trivial) (Sourced.start hf fun _ _ _ _ _ => trivial)
  have hall : ∀ x ∈ (run C).heads, (x.1 ≠ .element ∧ x.1 ≠ .template) ∨ (x.2.1 ∈ own ∨ Spec.TagOccurs C.E.U C.html x.2.1 ∨
      (x.2.1 = c%"img" ∧ Spec.TagOccurs C.E.U C.html c%"image")) := by
    intro x hx
    rw [run_eq ht, hs] at hx
    rcases Copies.heads (Copying.out (m := finish) C _) x hx with hx | rfl
    · obtain ⟨l, hl, hl2⟩ := hsrc.heads
      rw [hl] at hx
      rcases List.mem_append.1 hx with hx | hx
      · exact (h0 x hx).imp id .inl
      · rcases hl2 x hx with h | ⟨rfl, h⟩ | ⟨y, ns, hy, h, _⟩
        · exact .inl h.1
        · exact .inr (h.from own ho c%"html")
        · rw [h]; exact .inr (hy.from own ho ns)
    · left; simp [ENode.head, default, instInhabitedENode, instInhabitedENode.default]
  have hi : ((run C).n i).kind ≠ .element ∧ ((run C).n i).kind ≠ .template ∨ (((run C).n i).name ∈ own ∨ Spec.TagOccurs C.E.U C.html ((run C).n i).name ∨
      (((run C).n i).name = c%"img" ∧ Spec.TagOccurs C.E.U C.html c%"image")) := by
    rcases head_mem (run C) i with h | h
    · exact hall _ h
    · left
      have : ((run C).n i).kind = .text := congrArg Prod.fst h
      rw [this]; decide
  unfold shown
  cases hk : ((run C).n i).kind with
  | element => rcases hi with hi | hi; exact absurd hk hi.1; exact hi
  | template => rcases hi with hi | hi; exact absurd hk hi.2; exact hi
  | _ => trivial

theorem tagOccurs_dropBom {U : Uni} {name html : Str} (h : Spec.TagOccurs U (dropBom html) name) : Spec.TagOccurs U html name := by
  unfold dropBom at h
  split at h
  · next c l =>
    split at h
    · obtain ⟨pre, w, post, e, h⟩ := h
      exact ⟨c :: pre, w, post, by rw [e]; rfl, h⟩
    · exact h
  · exact h

theorem nameFrom_dropBom {U : Uni} {html : Str} {own : List Str} (n : Node) (h : Spec.NameFrom U (dropBom html) own n) : Spec.NameFrom U html own n := by
  cases n with
  | elem name ns as kids tpl content => exact h.imp id fun h => h.imp tagOccurs_dropBom fun h => ⟨h.1, tagOccurs_dropBom h.2⟩
  | _ => trivial

/-- The nodes at the start of a parse. -/
theorem setup_heads (own : List Str) (h1 : C.fragment = false → ∀ x ∈ [c%"html", c%"head", c%"body"], x ∈ own)
    (h2 : ∀ ctx, C.ctxName = some ctx → ctx ∈ own ∧ (ctx = c%"html" → ∀ x ∈ [c%"html", c%"head", c%"body"], x ∈ own)) :
    (setup C (buildRoot C (init C)).2).2.fmt = [] ∧
    ∀ x ∈ (setup C (buildRoot C (init C)).2).2.heads, (x.1 ≠ .element ∧ x.1 ≠ .template) ∨ x.2.1 ∈ own := by
  have hroot : ∀ x ∈ (buildRoot C (init C)).2.heads, (x.1 ≠ .element ∧ x.1 ≠ .template) ∨ x.2.1 ∈ own := by
    intro x hx
    have h1 : (buildRoot C (init C)).2.heads = [] ++ [(if C.fragment then ({ kind := .fragment, name := c%"#document-fragment" } : ENode)
      else { kind := .document, name := c%"#document" }).head] := heads_add (init C) _
    rw [h1] at hx
    simp only [List.nil_append, List.mem_singleton] at hx
    rw [hx]
    left
    split <;> simp [ENode.head]
  have hf : (buildRoot C (init C)).2.fmt = [] := rfl
  generalize (buildRoot C (init C)).2 = r at hroot hf
  have shell : (∀ x ∈ [c%"html", c%"head", c%"body"], x ∈ own) → (buildShell C r).2.fmt = [] ∧
      ∀ x ∈ (buildShell C r).2.heads, (x.1 ≠ .element ∧ x.1 ≠ .template) ∨ x.2.1 ∈ own := by
    intro ho
    refine ⟨hf, fun x hx => ?_⟩
    have e : (buildShell C r).2.heads = ((r.heads ++ [(elementNode c%"html" [] (some c%"html")).head]) ++ [(elementNode c%"head" [] (some c%"html")).head]) ++
        [(elementNode c%"body" [] (some c%"html")).head] := by
      have e1 : ∀ (p : Nat) (n : ENode) (s : St), (addChild p n C s).2.heads = s.heads ++ [n.head] := fun p n s => (heads_linkLast _ _ _).trans (heads_add _ _)
      have e2 : (buildShell C r).2.heads = (addChild (r.heap.length) (elementNode c%"body" [] (some c%"html")) C
        (addChild (r.heap.length) (elementNode c%"head" [] (some c%"html")) C (addChild r.doc (elementNode c%"html" [] (some c%"html")) C r).2).2).2.heads := rfl
      rw [e2, e1, e1, e1]
    rw [e] at hx
    simp only [List.mem_append, List.mem_singleton] at hx
    rcases hx with ((hx | rfl) | rfl) | rfl
    · exact hroot x hx
    · exact .inr (ho c%"html" (by simp))
    · exact .inr (ho c%"head" (by simp))
    · exact .inr (ho c%"body" (by simp))
  unfold setup iteQ
  by_cases hfr : C.fragment = true
  · rw [if_neg (show ¬ ((!C.fragment) = true) by rw [hfr]; simp)]
    by_cases hh : (isHtmlNs C.ctxNs && decide (C.ctxName = some c%"html")) = true
    · rw [if_pos (show (isHtmlNs C.ctxNs && decide (C.ctxName = some c%"html")) = true from hh)]
      simp only [Bool.and_eq_true, decide_eq_true_eq] at hh
      have e : (setupHtml C r).2.heads = (buildShell C r).2.heads ∧ (setupHtml C r).2.fmt = (buildShell C r).2.fmt := by
        have w : ∀ (c : Cfg → St → Bool) (k : St → Nat) (s : St), (whQ c (fun C s => noteUnwrap (k s) C s) C s).2.heads = s.heads ∧
            (whQ c (fun C s => noteUnwrap (k s) C s) C s).2.fmt = s.fmt := by
          intro c k s
          unfold whQ
          split <;> exact ⟨rfl, rfl⟩
        have e2 : (setupHtml C r).2 = (whQ (fun C _ => !C.plan.rawMode && !C.plan.allowedTags.contains c%"body") (fun C s => noteUnwrap s.body C s) C
          (whQ (fun C _ => !C.plan.rawMode && !C.plan.allowedTags.contains c%"head") (fun C s => noteUnwrap (s.head.getD 0) C s) C
            { (buildShell C r).2 with ctxNode := (buildShell C r).2.html }).2).2 := rfl
        rw [e2, (w _ (fun s => s.body) _).1, (w _ (fun s => s.body) _).2, (w _ (fun s => s.head.getD 0) _).1, (w _ (fun s => s.head.getD 0) _).2]
        exact ⟨rfl, rfl⟩
      rw [e.1, e.2]
      exact shell ((h2 _ hh.2).2 rfl)
    · rw [if_neg (show ¬ (isHtmlNs C.ctxNs && decide (C.ctxName = some c%"html")) = true from hh)]
      unfold whQ
      split
      · next hc =>
        cases hn : C.ctxName with
        | none =>
          have hc' : (match C.ctxName with | none => false | some n => !n.isEmpty && decide (n ≠ c%"div")) = true := hc
          rw [hn] at hc'; exact absurd hc' (by simp)
        | some ctx =>
          refine ⟨hf, fun x hx => ?_⟩
          have e : (setupContext ctx C r).2.heads = r.heads ++ [(elementNode ctx [] (some (match C.ctxNs with | some [] => c%"html" | some x => x | none => c%"html"))).head] :=
            (heads_linkLast _ _ _).trans (heads_add _ _)
          have hx' : x ∈ (setupContext (C.ctxName.getD []) C r).2.heads := hx
          rw [hn, Option.getD_some, e] at hx'
          rcases List.mem_append.1 hx' with hx | hx
          · exact hroot x hx
          · simp only [List.mem_singleton] at hx
            rw [hx]; exact .inr (h2 ctx hn).1
      · exact ⟨hf, hroot⟩
  · rw [if_pos (show (!C.fragment) = true by simpa using hfr)]
    exact shell (h1 (by simpa using hfr))

theorem run_names [Ok C] (own : List Str) (ho : ∀ x ∈ [c%"p", c%"br", c%"tbody", c%"tr", c%"colgroup"], x ∈ own)
    (h1 : C.fragment = false → ∀ x ∈ [c%"html", c%"head", c%"body"], x ∈ own)
    (h2 : ∀ ctx, C.ctxName = some ctx → ctx ∈ own ∧ (ctx = c%"html" → ∀ x ∈ [c%"html", c%"head", c%"body"], x ∈ own)) :
    Spec.Everywhere (Spec.NameFrom C.E.U C.html own) (result C) := by
  cases ht : (C.fragment && textContext C) with
  | true =>
    refine everywhere_imp (fun n hn => ?_) _ (text_result (C := C) ht [])
    cases n with
    | elem name ns as kids tpl content => exact absurd hn.2 (by simp)
    | _ => trivial
  | false =>
    obtain ⟨a, b⟩ := setup_heads own h1 h2
    exact run_from own ho _ ht rfl a b

end

/-- The elements that HTML lets a parser insert by itself. -/
def implied : List Str := [c%"p", c%"br", c%"tbody", c%"tr", c%"colgroup"]

/-- C80, documents: every element of the result of `JustHTML(html)`, sanitized or not, is `html`, `head`, `body`, one of the elements that HTML implies,
or has the name of a start tag of the input. -/
theorem C80_document_names (E : UrlEnv) (T : EntTables) (html : Str) (scripting : Bool) :
    Spec.Everywhere (Spec.NameFrom E.U html (c%"html" :: c%"head" :: c%"body" :: implied)) (result (safeCfg E T false html (scripting := scripting))) ∧
    Spec.Everywhere (Spec.NameFrom E.U html (c%"html" :: c%"head" :: c%"body" :: implied)) (result (rawCfg E T false html (scripting := scripting))) := by
  constructor
  · refine everywhere_imp (fun n hn => nameFrom_dropBom n hn) _ (run_names (C := safeCfg E T false html (scripting := scripting)) _ ?_ ?_ ?_)
    · intro x hx; exact List.mem_cons_of_mem _ (List.mem_cons_of_mem _ (List.mem_cons_of_mem _ hx))
    · intro _ x hx; simp at hx ⊢; grind
    · intro ctx h; exact absurd h (by simp [safeCfg])
  · refine everywhere_imp (fun n hn => nameFrom_dropBom n hn) _ (run_names (C := rawCfg E T false html (scripting := scripting)) _ ?_ ?_ ?_)
    · intro x hx; exact List.mem_cons_of_mem _ (List.mem_cons_of_mem _ (List.mem_cons_of_mem _ hx))
    · intro _ x hx; simp at hx ⊢; grind
    · intro ctx h; exact absurd h (by simp [rawCfg])

/-- C80, fragments in any context: the same, with the context instead of `html`, `head`, `body` (which only the context `html` brings along). -/
theorem C80_fragment_names (E : UrlEnv) (T : EntTables) (html ctx : Str) (ctxNs : Option Str) (scripting : Bool) :
    Spec.Everywhere (Spec.NameFrom E.U html (ctx :: (if ctx = c%"html" then [c%"head", c%"body"] else []) ++ implied))
      (result (safeCfg E T true html ctx ctxNs scripting)) ∧
    Spec.Everywhere (Spec.NameFrom E.U html (ctx :: (if ctx = c%"html" then [c%"head", c%"body"] else []) ++ implied))
      (result (rawCfg E T true html ctx ctxNs scripting)) := by
  have own1 : ∀ x ∈ [c%"p", c%"br", c%"tbody", c%"tr", c%"colgroup"], x ∈ ctx :: (if ctx = c%"html" then [c%"head", c%"body"] else []) ++ implied :=
    fun x hx => List.mem_append_right _ hx
  have own2 : ∀ ctx', some ctx = some ctx' → ctx' ∈ ctx :: (if ctx = c%"html" then [c%"head", c%"body"] else []) ++ implied ∧
      (ctx' = c%"html" → ∀ x ∈ [c%"html", c%"head", c%"body"], x ∈ ctx :: (if ctx = c%"html" then [c%"head", c%"body"] else []) ++ implied) := by
    intro ctx' h
    have : ctx = ctx' := by simpa using h
    subst this
    refine ⟨by simp, fun h x hx => ?_⟩
    rw [if_pos h, h]
    simp at hx ⊢; grind
  constructor
  · refine everywhere_imp (fun n hn => nameFrom_dropBom n hn) _ (run_names (C := safeCfg E T true html ctx ctxNs scripting) _ own1 ?_ ?_)
    · intro h; exact absurd h (by simp [safeCfg])
    · intro ctx' h; exact own2 ctx' h
  · refine everywhere_imp (fun n hn => nameFrom_dropBom n hn) _ (run_names (C := rawCfg E T true html ctx ctxNs scripting) _ own1 ?_ ?_)
    · intro h; exact absurd h (by simp [rawCfg])
    · intro ctx' h; exact own2 ctx' h

/-- A name that occurs nowhere as `<name` in the text, in any case, is not the name of an element of the tree: a document with no start tag at all has
only the shell. -/
example (E : UrlEnv) : ¬ Spec.TagOccurs E.U c%"a > b & script c" c%"script" := by
  rintro ⟨pre, w, post, e, -⟩
  have : '<' ∈ c%"a > b & script c" := by rw [e]; simp
  exact absurd this (by decide)

/-- Mixed case, and a tag cut short by the end of the name's text. -/
example (U : Uni) : Spec.TagOccurs U c%"x<ScRipt\ty" c%"script" := by
  refine ⟨c%"x", c%"ScRipt", c%"\ty", rfl, ⟨'S', c%"cRipt", rfl, by decide, ?_⟩, ?_, c%"ScRipt", .inl rfl, .inl (by decide)⟩
  · unfold Spec.endsName; decide
  · intro x hx; unfold Spec.endsName; revert hx; simp [List.head?]; rintro rfl; simp

/-- The implied elements do appear without a tag, and `image` makes an `img`. -/
example : rawHtml false c%"<body></p></br><table><td></table><table><col></table><IMAGE>" =
    .ok c%"<html><head></head><body><p></p><br><table><tbody><tr><td></td></tr></tbody></table><table><colgroup><col></colgroup></table><img></body></html>" := by
  decide +kernel

end JH.Eng
