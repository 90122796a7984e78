import Verif.Spec.Cli
import Verif.Model.Cli
import Verif.Props.Construct
import Verif.Props.Fences
import Verif.Props.Prune
/-! Property C105: the command line. -/
namespace JH
open Spec
set_option maxRecDepth 100000
seal Eng.result Eng.run

/-! ### The tags of `--allow-tags` -/

theorem mem_splitC (f : Char → Char) (s w : Str) (hf : ∀ c, f c = ',' ↔ c = ',' ∨ c = ' ') (hi : ∀ c, f c ≠ ',' → f c = c) :
    w ∈ splitC ',' (s.map f) ↔ ListItem s w := by
  -- first piece and the others
  have key : ∀ s : Str, ∃ v vs, splitC ',' (s.map f) = v :: vs ∧
      (∀ w, w = v ↔ ∃ post, s = w ++ post ∧ (∀ c ∈ w, c ≠ ',' ∧ c ≠ ' ') ∧ (post = [] ∨ ∃ p c, post = c :: p ∧ (c = ',' ∨ c = ' '))) ∧
      (∀ w, w ∈ vs ↔ ∃ pre c post, s = pre ++ c :: (w ++ post) ∧ (c = ',' ∨ c = ' ') ∧ (∀ c ∈ w, c ≠ ',' ∧ c ≠ ' ') ∧
        (post = [] ∨ ∃ p c, post = c :: p ∧ (c = ',' ∨ c = ' '))) := by
    intro s
    induction s with
    | nil =>
      refine ⟨[], [], rfl, ?_, ?_⟩
      · intro w
        constructor
        · rintro rfl; exact ⟨[], rfl, by simp, .inl rfl⟩
        · rintro ⟨post, h, -⟩
          have := congrArg List.length h
          simp at this
          exact List.length_eq_zero_iff.1 (by omega)
      · intro w; simp
    | cons x s ih =>
      obtain ⟨v, vs, e, h1, h2⟩ := ih
      by_cases hx : x = ',' ∨ x = ' '
      · refine ⟨[], v :: vs, ?_, ?_, ?_⟩
        · rw [List.map_cons, splitC, e]; simp [(hf x).2 hx]
        · intro w
          constructor
          · rintro rfl; exact ⟨x :: s, rfl, by simp, .inr ⟨s, x, rfl, hx⟩⟩
          · rintro ⟨post, h, hw, -⟩
            cases w with
            | nil => rfl
            | cons c w =>
              simp only [List.cons_append, List.cons.injEq] at h
              have := hw c (by simp)
              rw [← h.1] at this
              rcases hx with hx | hx
              · exact absurd hx this.1
              · exact absurd hx this.2
        · intro w
          rw [List.mem_cons, h1, h2]
          constructor
          · rintro (⟨post, h, hw, hp⟩ | ⟨pre, c, post, h, hc, hw, hp⟩)
            · exact ⟨[], x, post, by rw [h]; rfl, hx, hw, hp⟩
            · exact ⟨x :: pre, c, post, by rw [h]; rfl, hc, hw, hp⟩
          · rintro ⟨pre, c, post, h, hc, hw, hp⟩
            cases pre with
            | nil =>
              simp only [List.nil_append, List.cons.injEq] at h
              exact .inl ⟨post, h.2, hw, hp⟩
            | cons y pre =>
              simp only [List.cons_append, List.cons.injEq] at h
              exact .inr ⟨pre, c, post, h.2, hc, hw, hp⟩
      · have hfx : f x ≠ ',' := fun h => hx ((hf x).1 h)
        refine ⟨x :: v, vs, ?_, ?_, ?_⟩
        · rw [List.map_cons, splitC, e]; simp [hi x hfx]; exact fun h => hx (.inl h)
        · intro w
          constructor
          · rintro rfl
            obtain ⟨post, h, hw, hp⟩ := (h1 v).1 rfl
            refine ⟨post, by rw [List.cons_append, ← h], ?_, hp⟩
            intro c hc
            rcases List.mem_cons.1 hc with rfl | hc
            · exact ⟨fun h => hx (.inl h), fun h => hx (.inr h)⟩
            · exact hw c hc
          · rintro ⟨post, h, hw, hp⟩
            cases w with
            | nil =>
              rcases hp with rfl | ⟨p, c, rfl, hc⟩
              · simp at h
              · simp only [List.nil_append, List.cons.injEq] at h
                rw [← h.1] at hc
                exact absurd hc hx
            | cons c w =>
              simp only [List.cons_append, List.cons.injEq] at h
              rw [h.1, (h1 w).2 ⟨post, h.2, fun c hc => hw c (by simp [hc]), hp⟩]
        · intro w
          rw [h2]
          constructor
          · rintro ⟨pre, c, post, h, hc, hw, hp⟩
            exact ⟨x :: pre, c, post, by rw [h]; rfl, hc, hw, hp⟩
          · rintro ⟨pre, c, post, h, hc, hw, hp⟩
            cases pre with
            | nil =>
              simp only [List.nil_append, List.cons.injEq] at h
              rw [← h.1] at hc
              exact absurd hc hx
            | cons y pre =>
              simp only [List.cons_append, List.cons.injEq] at h
              exact ⟨pre, c, post, h.2, hc, hw, hp⟩
  obtain ⟨v, vs, e, h1, h2⟩ := key s
  rw [e, List.mem_cons, h1, h2]
  constructor
  · rintro (⟨post, h, hw, hp⟩ | ⟨pre, c, post, h, hc, hw, hp⟩)
    · exact ⟨[], post, by simpa using h, hw, .inl rfl, hp⟩
    · exact ⟨pre ++ [c], post, by simp [h], hw, .inr ⟨pre, c, rfl, hc⟩, hp⟩
  · rintro ⟨pre, post, h, hw, rfl | ⟨p, c, rfl, hc⟩, hp⟩
    · exact .inl ⟨post, by simpa using h, hw, hp⟩
    · exact .inr ⟨p, c, post, by simp [h], hc, hw, hp⟩

/-- C105: `--allow-tags` allows exactly the items of its list, between commas or spaces, stripped and in lower case, besides the default tags; without
`--allow-tags`, or with `--unsafe`, there is no policy of its own. -/
theorem C105_allow_tags (U : Uni) (a : CliArgs) :
    (cliPolicy U a = none ↔ a.unsafe_ = true ∨ a.allowTags = []) ∧
    ∀ P, cliPolicy U a = some P → ∀ t, t ∈ P.allowedTags ↔ t ∈ (defaultCfg a.fragment).allowedTags ∨
      (t ≠ [] ∧ ∃ w, ListItem a.allowTags w ∧ t = U.lower (stripP U.isSpace w)) := by
  constructor
  · unfold cliPolicy
    cases a.unsafe_ <;> cases a.allowTags <;> simp
  · intro P hP t
    unfold cliPolicy at hP
    split at hP
    · simp only [Option.some.injEq] at hP
      subst hP
      simp only [List.mem_append, extraTags, List.mem_filter, List.mem_map]
      have := fun w => mem_splitC (fun c => if c = ' ' then ',' else c) a.allowTags w (by intro c; split <;> simp_all) (by intro c; split <;> simp_all)
      constructor
      · rintro (h | ⟨⟨w, hw, rfl⟩, hne⟩)
        · exact .inl h
        · exact .inr ⟨by simpa using hne, w, (this w).1 hw, rfl⟩
      · rintro (h | ⟨hne, w, hw, rfl⟩)
        · exact .inl h
        · exact .inr ⟨⟨w, (this w).2 hw, rfl⟩, by simpa using hne⟩
    · simp at hP


/-! ### How a run ends -/

theorem renderAll_some (U : Uni) (a : CliArgs) : ∀ (nodes : List Node) (outs : List Str), renderAll U a nodes = some outs →
    List.Forall₂ (fun n s => cliRender U a n = some s) nodes outs := by
  intro nodes
  induction nodes with
  | nil => intro outs h; simp only [renderAll, Option.some.injEq] at h; subst h; exact .nil
  | cons n r ih =>
    intro outs h
    rw [renderAll] at h
    split at h
    · rename_i s l h1 h2
      simp only [Option.some.injEq] at h
      subst h
      exact .cons h1 (ih l h2)
    · simp at h

/-- The tree that the options ask for. -/
theorem cli_root (V : CliEnv) (a : CliArgs) (html : Str) : ∃ kids, construct V.R V.T V.fuel (cliCall V.R.S.E.U a) (.text html) = some (.doc kids) := by
  obtain ⟨-, h2, h3, -⟩ := C104_total V.R V.T V.fuel (cliCall V.R.S.E.U a) (.text html)
  obtain ⟨root, h⟩ := Option.isSome_iff_exists.1 (h3 html)
  obtain ⟨kids, rfl⟩ := h2 root h
  exact ⟨kids, h⟩

/-- What happens with the tree. -/
theorem cli_main (V : CliEnv) (a : CliArgs) (html : Str) (root : Node) (hr : construct V.R V.T V.fuel (cliCall V.R.S.E.U a) (.text html) = some root) :
    cliMain V a html = match (if a.strict then V.errors (cliCall V.R.S.E.U a) html else none) with
      | some e => .exit 2 e
      | none => match cliNodes V a root with
        | .error (code, e) => .exit code e
        | .ok nodes => match renderAll V.R.S.E.U a nodes with
          | none => .raised
          | some outs => .wrote (if a.output.isEmpty then none else some a.output) (join (cliGlue a.format) outs ++ c%"\n") := by
  unfold cliMain
  dsimp only
  rw [hr]
  rfl

/-- C105: the exit codes. 2 with a message if a strict parse reports an error or the selector is refused, 1 if the selector matches nothing; in these
cases nothing is written. Otherwise the chosen nodes are written, each in the chosen format, in the order of the query, all or (`--first`) the first. -/
theorem C105_ends (V : CliEnv) (a : CliArgs) (html : Str) : ∃ root,
    construct V.R V.T V.fuel (cliCall V.R.S.E.U a) (.text html) = some root ∧
    (∀ code e, cliMain V a html = .exit code e ↔
      (code = 2 ∧ a.strict = true ∧ V.errors (cliCall V.R.S.E.U a) html = some e) ∨
      ((a.strict = true → V.errors (cliCall V.R.S.E.U a) html = none) ∧ a.selector ≠ [] ∧
        ((code = 2 ∧ V.query root a.selector = .error e) ∨ (code = 1 ∧ e = [] ∧ V.query root a.selector = .ok [])))) ∧
    (∀ dest out, cliMain V a html = .wrote dest out →
      (a.strict = true → V.errors (cliCall V.R.S.E.U a) html = none) ∧ (dest = none ↔ a.output = []) ∧ (∀ d, dest = some d → d = a.output) ∧
      ∃ l nodes outs, l ≠ [] ∧ ((a.selector = [] ∧ l = [root]) ∨ (a.selector ≠ [] ∧ V.query root a.selector = .ok l)) ∧
        nodes = (if a.first then l.take 1 else l) ∧ List.Forall₂ (fun n s => cliRender V.R.S.E.U a n = some s) nodes outs ∧
        out = join (cliGlue a.format) outs ++ c%"\n") := by
  obtain ⟨kids, hr⟩ := cli_root V a html
  refine ⟨.doc kids, hr, ?_, ?_⟩
  · intro code e
    rw [cli_main V a html _ hr]
    unfold cliNodes
    cases hs : a.strict <;> cases hx : V.errors (cliCall V.R.S.E.U a) html <;> cases hsel : a.selector with
    | nil => simp <;> (try split) <;> (try simp) <;> (try grind)
    | cons c s =>
      cases hq : V.query (.doc kids) (c :: s) with
      | error e' => simp <;> grind
      | ok l =>
        cases l with
        | nil => simp <;> grind
        | cons n r => simp <;> (try split) <;> (try simp) <;> (try grind)
  · intro dest out h
    rw [cli_main V a html _ hr] at h
    generalize hst : (if a.strict = true then V.errors (cliCall V.R.S.E.U a) html else none) = x at h
    cases x with
    | some e => simp at h
    | none =>
      dsimp only at h
      refine ⟨fun hs => by simpa [hs] using hst, ?_⟩
      cases hn : cliNodes V a (.doc kids) with
      | error p => rw [hn] at h; simp at h
      | ok nodes =>
        rw [hn] at h
        dsimp only at h
        cases ho : renderAll V.R.S.E.U a nodes with
        | none => rw [ho] at h; simp at h
        | some outs =>
          rw [ho] at h
          simp only [CliEnd.wrote.injEq] at h
          obtain ⟨rfl, rfl⟩ := h
          refine ⟨by simp, by intro d hd; split at hd <;> simp_all, ?_⟩
          unfold cliNodes at hn
          split at hn
          · simp at hn
          · simp at hn
          · rename_i n r hq
            refine ⟨n :: r, nodes, outs, by simp, ?_, ?_, renderAll_some _ _ _ _ ho, rfl⟩
            · by_cases hsel : a.selector = []
              · simp only [hsel, List.isEmpty_nil, if_true, Except.ok.injEq] at hq
                exact .inl ⟨hsel, hq.symm⟩
              · rw [if_neg (by simpa using hsel)] at hq
                exact .inr ⟨hsel, hq⟩
            · simp only [Except.ok.injEq] at hn
              rw [← hn]
              split <;> simp


/-! ### What is written is safe -/

theorem reach_trans {m n : Node} {l : List Node} (h : Reach m [n]) (h' : Reach n l) : Reach m l := by
  induction h' with
  | here hm => exact h.mono (by simpa using hm)
  | kid h1 h2 _ ih => exact .kid h1 h2 ih
  | content h1 h2 _ ih => exact .content h1 h2 ih
  | doc h1 _ ih => exact .doc h1 ih

/-- The policy in force (unless `--unsafe`). -/
def cliEffective (U : Uni) (a : CliArgs) : SanCfg := (cliPolicy U a).getD (defaultCfg a.fragment)

theorem cliEffective_fields (U : Uni) (a : CliArgs) : (cliEffective U a).allowedAttrs = (defaultCfg a.fragment).allowedAttrs ∧
    (cliEffective U a).cssProps = (defaultCfg a.fragment).cssProps ∧ (cliEffective U a).url = (defaultCfg a.fragment).url := by
  unfold cliEffective cliPolicy
  split <;> exact ⟨rfl, rfl, rfl⟩

theorem cliEffective_normal (U : Uni) (a : CliArgs) : (cliEffective U a).Normal U := by
  obtain ⟨h1, h2, -⟩ := cliEffective_fields U a
  have h := defaultCfg_normal U a.fragment
  exact ⟨by rw [h1]; exact h.attrs, by rw [h1, h2]; exact h.style⟩

theorem cliEffective_guard (U : Uni) (a : CliArgs) (tag : Str) :
    urlRuleFor (cliEffective U a).url tag c%"http-equiv" = none ∧ urlRuleFor (cliEffective U a).url tag c%"name" = none := by
  rw [(cliEffective_fields U a).2.2]
  exact defaultCfg_guard a.fragment tag

theorem cli_ctx (U : Uni) (a : CliArgs) : (cliCall U a).fragment = true → ProperName (cliCall U a).ctx := fun _ => ⟨by simp [cliCall], by simp [cliCall]⟩

theorem cli_cleanup_specs (U : Uni) (a : CliArgs) (hu : a.unsafe_ = false) (hc : a.cleanup = true) :
    (cliCall U a).transforms = .one true (.sanitize (cliEffective U a)) ::
      [.one true (.unwrap c%"a:not([href])"), .one true (.drop c%"img:not([src]), img[src=\"\"]"), .one true (.pruneEmpty c%"*" true)] := by
  simp [cliCall, cliTransforms, hu, hc, cliEffective]

theorem cli_tree_safe (V : CliEnv) (hf : FullFuel V.fuel) (a : CliArgs) (html : Str) (hu : a.unsafe_ = false) (hx : a.allowTags ≠ [] ∨ a.cleanup = true)
    (kids : List Node) (h : construct V.R V.T V.fuel (cliCall V.R.S.E.U a) (.text html) = some (.doc kids)) (m : Node) (hm : Reach m kids) :
    SafeNode V.R.S.E (cliEffective V.R.S.E.U a) m ∧ WellNamed m := by
  by_cases hc : a.cleanup = true
  · exact C104_listed V.R V.T V.fuel hf (cliCall V.R.S.E.U a) (.text html) (cli_ctx _ a) _ _ (cli_cleanup_specs _ a hu hc) _ (.inl rfl) ⟨trivial, trivial, trivial, trivial⟩
      (cliEffective_normal _ a) (cliEffective_guard _ a) kids h m hm
  · have hc' : a.cleanup = false := by simpa using hc
    have ha : a.allowTags ≠ [] := hx.resolve_right hc
    have hP : (cliCall V.R.S.E.U a).policy = some (cliEffective V.R.S.E.U a) := by
      have : cliPolicy V.R.S.E.U a = some (cliEffective V.R.S.E.U a) := by
        unfold cliEffective cliPolicy
        simp [hu, ha]
      exact this
    exact C104_custom V.R V.T V.fuel hf (cliCall V.R.S.E.U a) (.text html) (cli_ctx _ a) (by simp [cliCall, hu])
      (by simp [cliCall, cliTransforms, hc']) _ hP rfl (cliEffective_normal _ a) (cliEffective_guard _ a) kids h m hm

/-- C105: with `--allow-tags` or `--cleanup`, and without `--unsafe`: every node that is written, and every node in it, is as the default policy with the
additional tags wants it, whatever the input and the selector. (Without either option the tree is that of the compiled parser: C75, C76, C79.) -/
theorem C105_safe (V : CliEnv) (hf : FullFuel V.fuel) (hq : QueryIn V.query) (a : CliArgs) (html : Str) (hu : a.unsafe_ = false)
    (hx : a.allowTags ≠ [] ∨ a.cleanup = true) (dest : Option Str) (out : Str) (h : cliMain V a html = .wrote dest out) :
    ∃ nodes outs, List.Forall₂ (fun n s => cliRender V.R.S.E.U a n = some s) nodes outs ∧ out = join (cliGlue a.format) outs ++ c%"\n" ∧
      ∀ n ∈ nodes, ∀ m, Reach m [n] → SafeNode V.R.S.E ((cliPolicy V.R.S.E.U a).getD (defaultCfg a.fragment)) m ∧ WellNamed m := by
  obtain ⟨root, hr, -, hw⟩ := C105_ends V a html
  obtain ⟨-, -, -, l, nodes, outs, -, hl, hn, h1, h2⟩ := hw dest out h
  refine ⟨nodes, outs, h1, h2, ?_⟩
  intro n hmem m hm
  have hsub : n ∈ l := by
    rw [hn] at hmem
    split at hmem
    · exact List.mem_of_mem_take hmem
    · exact hmem
  have hroot : Reach n [root] := by
    rcases hl with ⟨-, rfl⟩ | ⟨-, hl⟩
    · exact .here hsub
    · exact hq _ _ _ hl n hsub
  have hmr := reach_trans hm hroot
  obtain ⟨kids, hk⟩ := cli_root V a html
  rw [hk] at hr
  simp only [Option.some.injEq] at hr
  subst hr
  cases hmr with
  | here h => simp only [List.mem_singleton] at h; subst h; exact ⟨trivial, fun a b c d e f he => by simp at he⟩
  | kid h => simp at h
  | content h => simp at h
  | doc h h' =>
    simp only [List.mem_singleton, Node.doc.injEq] at h
    subst h
    exact cli_tree_safe V hf a html hu hx _ hk m h'

/-- C105: without options that change it the tree is the one of `JustHTML(html)`, and with `--unsafe` that of `JustHTML(html, sanitize=False)`. -/
theorem C105_plain (V : CliEnv) (a : CliArgs) (html : Str) (hc : a.cleanup = false) :
    (a.unsafe_ = false → a.allowTags = [] → construct V.R V.T V.fuel (cliCall V.R.S.E.U a) (.text html) =
      some (Eng.result (Eng.safeCfg V.R.S.E V.T a.fragment html))) ∧
    (a.unsafe_ = true → construct V.R V.T V.fuel (cliCall V.R.S.E.U a) (.text html) = some (Eng.result (Eng.rawCfg V.R.S.E V.T a.fragment html))) := by
  constructor
  · intro hu ha
    have hcomp : (cliCall V.R.S.E.U a).compiled = true := by simp [cliCall, Args.compiled, Args.enabled, hu, cliPolicy, ha, cliTransforms, hc]
    have e : sourceText V.R.S.E.U (cliCall V.R.S.E.U a) (.text html) = some html := rfl
    unfold construct
    rw [e]
    dsimp only
    rw [if_pos hcomp]
    rfl
  · intro hu
    exact C104_unsanitized V.R V.T V.fuel (cliCall V.R.S.E.U a) html (by simp [cliCall, hu]) (by simp [cliCall, cliTransforms, hc])

/-- C105: `--cleanup` only removes: every node of the tree is a text, or was there, with the same attributes, without `--cleanup`. (Where the parse without
`--cleanup` is not the compiled one.) -/
theorem C105_cleanup_removes (V : CliEnv) (hf : FullFuel V.fuel) (a : CliArgs) (html : Str) (hx : a.unsafe_ = true ∨ a.allowTags ≠ []) (kids kids0 : List Node)
    (h : construct V.R V.T V.fuel (cliCall V.R.S.E.U { a with cleanup := true }) (.text html) = some (.doc kids))
    (h0 : construct V.R V.T V.fuel (cliCall V.R.S.E.U { a with cleanup := false }) (.text html) = some (.doc kids0)) (m : Node) (hm : Reach m kids) :
    (∃ d, m = .text d) ∨ ∃ m0, Reach m0 kids0 ∧ SameButContents m0 m := by
  have hpost : RemovingSpecs [.one true (.unwrap c%"a:not([href])"), .one true (.drop c%"img:not([src]), img[src=\"\"]"), .one true (.pruneEmpty c%"*" true)] :=
    ⟨trivial, trivial, trivial, trivial⟩
  have comp : ∀ b, Args.compiled (cliCall V.R.S.E.U { a with cleanup := b }) = false := by
    intro b
    rcases hx with hx | hx
    · simp [cliCall, Args.compiled, Args.enabled, hx]
    · cases a.unsafe_
      · simp [cliCall, Args.compiled, Args.enabled, cliPolicy, hx]
      · simp [cliCall, Args.compiled, Args.enabled]
  rw [construct_raw _ _ _ _ _ (comp true)] at h
  rw [construct_raw _ _ _ _ _ (comp false)] at h0
  simp only [sourceText, Option.map_some, Option.some.injEq, Node.doc.injEq] at h h0
  have hpk : parseKids V.R.S.E V.T (cliCall V.R.S.E.U { a with cleanup := true }) html = parseKids V.R.S.E V.T (cliCall V.R.S.E.U { a with cleanup := false }) html := rfl
  rw [hpk] at h
  cases hu : a.unsafe_ with
  | true =>
    have e0 : Args.specs (cliCall V.R.S.E.U { a with cleanup := false }) = [] := by simp [cliCall, Args.specs, Args.enabled, hu, cliTransforms, bindSpecs]
    have e1 : Args.specs (cliCall V.R.S.E.U { a with cleanup := true }) =
        [.one true (.unwrap c%"a:not([href])"), .one true (.drop c%"img:not([src]), img[src=\"\"]"), .one true (.pruneEmpty c%"*" true)] := by
      simp [cliCall, Args.specs, Args.enabled, hu, cliTransforms, bindSpecs, bindSpec]
    rw [e0, transform_none] at h0
    rw [e1] at h
    rw [← h] at hm
    rw [← h0]
    exact C102_removing V.R V.fuel _ hpost _ m hm
  | false =>
    have ha : a.allowTags ≠ [] := by simpa [hu] using hx
    have e0 : Args.specs (cliCall V.R.S.E.U { a with cleanup := false }) = [.one true (.sanitize (cliEffective V.R.S.E.U a))] := by
      simp [cliCall, Args.specs, Args.enabled, Args.effective, hu, cliTransforms, bindSpecs, hasSans]
      simp [cliEffective, cliPolicy, hu, ha]
    have e1 : Args.specs (cliCall V.R.S.E.U { a with cleanup := true }) = .one true (.sanitize (cliEffective V.R.S.E.U a)) ::
        [.one true (.unwrap c%"a:not([href])"), .one true (.drop c%"img:not([src]), img[src=\"\"]"), .one true (.pruneEmpty c%"*" true)] := by
      simp [cliCall, Args.specs, Args.enabled, hu, cliTransforms, bindSpecs, bindSpec, hasSans, UserSpec.hasSan, Trans.isSanitize]
      simp [cliEffective, cliPolicy, hu, ha]
    rw [e0, transform_sanitize V.R V.fuel hf] at h0
    rw [e1] at h
    rw [← h] at hm
    rw [← h0]
    exact sanitize_first V.R V.fuel hf _ hpost _ _ m hm


/-! ### Nothing empty is left -/

mutual
theorem everywhere_of_reach (p : Node → Prop) (hw : ∀ name ns as kids tpl content, p (.elem name ns as kids tpl content) → ProperName name) :
    ∀ n : Node, (∀ m, Reach m [n] → p m) → Everywhere p n
  | .elem name ns as kids tpl content, h => by
    have h0 := h _ (.here (List.mem_singleton.2 rfl))
    have hn := (hw _ _ _ _ _ _ h0).1
    refine ⟨h0, everywhereL_of_reach p hw kids fun m hm => h m (.kid (List.mem_singleton.2 rfl) hn hm), ?_⟩
    intro ht
    subst ht
    exact everywhereL_of_reach p hw content fun m hm => h m (.content (List.mem_singleton.2 rfl) hn hm)
  | .doc kids, h => ⟨h _ (.here (List.mem_singleton.2 rfl)), everywhereL_of_reach p hw kids fun m hm => h m (.doc (List.mem_singleton.2 rfl) hm)⟩
  | .text _, h => h _ (.here (List.mem_singleton.2 rfl))
  | .comment _, h => h _ (.here (List.mem_singleton.2 rfl))
  | .pi _, h => h _ (.here (List.mem_singleton.2 rfl))
  | .doctype _ _ _, h => h _ (.here (List.mem_singleton.2 rfl))
theorem everywhereL_of_reach (p : Node → Prop) (hw : ∀ name ns as kids tpl content, p (.elem name ns as kids tpl content) → ProperName name) :
    ∀ l : List Node, (∀ m, Reach m l → p m) → EverywhereL p l
  | [], _ => trivial
  | n :: l, h => ⟨everywhere_of_reach p hw n fun m hm => h m (hm.mono (by simp)), everywhereL_of_reach p hw l fun m hm => h m (hm.mono (fun y hy => by simp [hy]))⟩
end

theorem under_named {l l0 : List Node} (h : Under l l0) (h0 : ∀ m, Reach m l0 → WellNamed m) (m : Node) (hm : Reach m l) : WellNamed m := by
  rcases h m hm with ⟨d, rfl⟩ | ⟨m0, hm0, hs⟩
  · intro a b c d e f he; simp at he
  · have hw := h0 m0 hm0
    cases m0 <;> cases m <;> simp only [SameButContents] at hs <;> intro a b c d e f he <;> simp only [Node.elem.injEq, reduceCtorEq] at he
    obtain ⟨rfl, -⟩ := hs
    obtain ⟨rfl, -⟩ := he
    exact hw _ _ _ _ _ _ rfl

/-- C105: after `--cleanup`, with or without `--unsafe`, no element is left that has nothing in it but white space and comments, other than void
elements. (`*` is assumed to match every element and no doctype.) -/
theorem C105_cleanup_pruned (V : CliEnv) (hf : FullFuel V.fuel) (a : CliArgs) (html : Str) (hc : a.cleanup = true)
    (hstar : (∀ path name ns as kids tpl content, V.R.sel c%"*" path (.elem name ns as kids tpl content) = true) ∧ ∀ path x y z, V.R.sel c%"*" path (.doctype x y z) = false)
    (kids : List Node) (h : construct V.R V.T V.fuel (cliCall V.R.S.E.U a) (.text html) = some (.doc kids)) (m : Node) (hm : Reach m kids) :
    emptyElem V.R.S.E.U.lower V.R.S.E.U.isSpace true m = false := by
  -- the transforms before the last
  let pre : List Trans := (if a.unsafe_ then [] else [.sanitize (cliEffective V.R.S.E.U a)]) ++ [.unwrap c%"a:not([href])"]
  have hspecs : Args.specs (cliCall V.R.S.E.U a) = (pre ++ Trans.drop c%"img:not([src]), img[src=\"\"]" :: [Trans.pruneEmpty c%"*" true]).map (TransSpec.one true) := by
    cases hu : a.unsafe_
    · simp [pre, cliCall, Args.specs, Args.enabled, hu, hc, cliTransforms, bindSpecs, bindSpec, hasSans, UserSpec.hasSan, Trans.isSanitize, cliEffective]
    · simp [pre, cliCall, Args.specs, Args.enabled, hu, hc, cliTransforms, bindSpecs, bindSpec]
  have hcomp : (cliCall V.R.S.E.U a).compiled = false := by simp [cliCall, Args.compiled, cliTransforms, hc]
  rw [construct_raw _ _ _ _ _ hcomp] at h
  simp only [sourceText, Option.map_some, Option.some.injEq, Node.doc.injEq] at h
  rw [hspecs, C92_apart V.R V.fuel pre [.pruneEmpty c%"*" true] (.drop c%"img:not([src]), img[src=\"\"]") _ (.inr (by simp [IsPrune])) (by simp [Idle])
    (by simp [Idle])] at h
  rw [← h] at hm
  have named : ∀ m, Reach m (transform V.R V.fuel ((pre ++ [Trans.drop c%"img:not([src]), img[src=\"\"]"]).map (TransSpec.one true)) (parseKids V.R.S.E V.T (cliCall V.R.S.E.U a) html)) → WellNamed m := by
    have hp := parse_named V.R.S.E V.T (cliCall V.R.S.E.U a) html (cli_ctx _ a)
    have hpost : RemovingSpecs [TransSpec.one true (Trans.unwrap c%"a:not([href])"), TransSpec.one true (Trans.drop c%"img:not([src]), img[src=\"\"]")] :=
      ⟨trivial, trivial, trivial⟩
    cases hu : a.unsafe_ with
    | true =>
      have e : (pre ++ [Trans.drop c%"img:not([src]), img[src=\"\"]"]).map (TransSpec.one true) = [.one true (.unwrap c%"a:not([href])"), .one true (.drop c%"img:not([src]), img[src=\"\"]")] := by
        simp [pre, hu]
      rw [e]
      exact under_named (C102_removing V.R V.fuel _ hpost _) fun m hm => everywhere_reach hm hp
    | false =>
      have e : (pre ++ [Trans.drop c%"img:not([src]), img[src=\"\"]"]).map (TransSpec.one true) = .one true (.sanitize (cliEffective V.R.S.E.U a)) ::
          [.one true (.unwrap c%"a:not([href])"), .one true (.drop c%"img:not([src]), img[src=\"\"]")] := by
        simp [pre, hu]
      rw [e]
      exact under_named (sanitize_first V.R V.fuel hf _ hpost _ _) fun m hm => sanitizeKids_named V.R.S _ _ hp m hm
  have hE := everywhereL_of_reach WellNamed (fun name ns as kids tpl content hw => hw name ns as kids tpl content rfl) _ named
  cases m with
  | elem name ns as ks tpl content =>
    exact C90_none_left V.R V.fuel [(c%"*", true)] [(fun _ _ _ => true, true)] _ (by simp) ⟨rfl, hstar.1, hstar.2, trivial⟩ ((everywhereL_iff _ _).1 hE) _ hm
      (fun _ _ _ => true) true (by simp) rfl
  | _ => rfl

/-! ### `--cleanup` and nested links -/

/-- For examples: the selectors of `--cleanup`. -/
def TransEnv.cleanup : TransEnv where
  S := SanEnv.sample
  L := LinkEnv.sample
  sel := fun s _ n =>
    match n with
    | .elem name _ as _ _ _ =>
      if s = c%"*" then true
      else if s = c%"a:not([href])" then name = c%"a" && as.all (fun p => p.1 ≠ c%"href")
      else name = c%"img" && (as.all (fun p => p.1 ≠ c%"src") || as.any fun p => p = (c%"src", some []))
    | _ => false

/-- For examples: no errors, and queries that find the root. -/
def CliEnv.sample : CliEnv where
  R := TransEnv.cleanup
  T := EntTables.sample
  fuel := fun l => 2 * Node.sizeL l + 1
  query := fun root _ => .ok [root]
  errors := fun _ _ => none

/-- An `a` without `href` as the second child of the first node. -/
def hasNested : Option Node → Option (Str × Str × Attrs)
  | some (.doc [.elem outer _ _ [_, .elem name _ as _ _ _] _ _]) => some (outer, name, as)
  | _ => none

/-- The input `<p><a>x<object><a>y</a></object></a></p>`. -/
def nestedLinks : Str := c%"<p><a>x<object><a>y</a></object></a></p>"

/-- Not all links without an address are unwrapped by `--cleanup`: of `<p><a>x<object><a>y</a></object></a></p>` it makes `<p>x<a>y</a></p>`, since
`Unwrap` does not look again at what it has unwrapped (F54). -/
theorem C105_links_fails : ¬ ∀ (V : CliEnv) (a : CliArgs) (html : Str) (kids : List Node), FullFuel V.fuel →
    (∀ path name ns as kids tpl content, V.R.sel c%"a:not([href])" path (.elem name ns as kids tpl content) = (name = c%"a" && as.all (fun p => p.1 ≠ c%"href"))) →
    a.cleanup = true → construct V.R V.T V.fuel (cliCall V.R.S.E.U a) (.text html) = some (.doc kids) →
    ∀ ns ks tpl content, ¬ Reach (.elem c%"a" ns [] ks tpl content) kids := by
  intro h
  obtain ⟨kids, hk⟩ := cli_root CliEnv.sample { fragment := true, cleanup := true } nestedLinks
  have h1 := h CliEnv.sample { fragment := true, cleanup := true } nestedLinks kids (fun _ => Nat.lt_succ_self _) (fun _ _ _ _ _ _ _ => rfl) rfl hk
  have h2 : hasNested (construct CliEnv.sample.R CliEnv.sample.T CliEnv.sample.fuel (cliCall CliEnv.sample.R.S.E.U { fragment := true, cleanup := true })
      (.text nestedLinks)) = some (c%"p", c%"a", []) := by decide +kernel
  rw [hk] at h2
  unfold hasNested at h2
  split at h2
  · rename_i e
    simp only [Option.some.injEq, Prod.mk.injEq] at h2 e
    obtain ⟨rfl, rfl, rfl⟩ := h2
    simp only [Node.doc.injEq] at e
    subst e
    exact h1 _ _ _ _ (.kid (List.mem_singleton.2 rfl) (by decide) (.here (List.mem_cons_of_mem _ (List.mem_singleton.2 rfl))))
  · simp at h2

/-- Non-vacuity: `--fragment --allow-tags "x-a, X-B"` on a fragment. -/
example : (match cliMain CliEnv.sample { fragment := true, allowTags := c%"x-a, X-B" } c%"<x-a onclick=f()>1</x-a><x-b>2</x-b><x-c>3</x-c>" with
    | .wrote none s => s
    | _ => []) = c%"<x-a>1</x-a>\n<x-b>2</x-b>\n3\n" := by
  decide +kernel

example : extraTags Uni.sample c%"x-a, X-B,, " = [c%"x-a", c%"x-b"] := by decide +kernel

example : QueryIn CliEnv.sample.query := fun root _ l h n hn => by
  simp only [CliEnv.sample, Except.ok.injEq] at h
  subst h
  exact .here hn

end JH
