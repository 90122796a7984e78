import Verif.Props.Stages
import Verif.Props.SanMain
/-! Property C93: whatever comes before, a pipeline that ends with `Sanitize` gives sanitized output. -/
namespace JH
open Spec

theorem walkPolicy_last (C : SanCfg) : ∀ l : List CT, (∀ c ∈ l, isWalkCT c = true) → walkPolicy (l ++ [.sanitize C]) = C := by
  intro l
  induction l with
  | nil => intro _; rfl
  | cons c l ih =>
    intro h
    have hc := h c (by simp)
    have := ih fun c hc => h c (by simp [hc])
    cases c <;> simp [isWalkCT] at hc <;> exact this

theorem runWalk_last (R : TransEnv) (fuel : Nat) (C : SanCfg) (l : List CT) (h : ∀ c ∈ l, isWalkCT c = true) (kids : List Node) :
    runWalk R fuel (l ++ [.sanitize C]) kids = walkF R.S C (l.flatMap (opsOfCT R (l ++ [.sanitize C])) ++ sanOps C) fuel [] false [] (kids.map fun k => (k, 0)) := by
  have e : (l ++ [CT.sanitize C]).flatMap (opsOfCT R (l ++ [.sanitize C])) = l.flatMap (opsOfCT R (l ++ [.sanitize C])) ++ sanOps C := by
    rw [List.flatMap_append]
    simp [opsOfCT]
  cases l with
  | nil => rw [← e]; rfl
  | cons c l =>
    have hp := walkPolicy_last C (c :: l) h
    rw [← e]
    have : runWalk R fuel (c :: l ++ [.sanitize C]) kids = walkF R.S (walkPolicy (c :: l ++ [.sanitize C]))
        ((c :: l ++ [CT.sanitize C]).flatMap (opsOfCT R (c :: l ++ [CT.sanitize C]))) fuel [] false [] (kids.map fun k => (k, 0)) := by
      cases l with
      | nil => cases c <;> rfl
      | cons d l => cases c <;> rfl
    rw [this, hp]

theorem runCT_sanitized (R : TransEnv) (fuel : List Node → Nat) (C : SanCfg) : ∀ (l pending : List CT) (batch : List (NodeSel × Bool)) (kids : List Node),
    (∀ c ∈ pending, isWalkCT c = true) → ∃ pre kids', runCT R fuel pending batch (l ++ [.sanitize C]) kids = transformKids R.S C pre (fuel kids') kids' := by
  intro l
  induction l with
  | nil =>
    intro pending batch kids h
    refine ⟨pending.reverse.flatMap (opsOfCT R (pending.reverse ++ [.sanitize C])), runCT.finishPrune R batch kids, ?_⟩
    simp only [List.nil_append, runCT, List.reverse_cons]
    rw [runWalk_last R _ C _ (by simpa using h)]
    simp only [runCT.finishWalk, runCT.finishPrune, List.isEmpty_nil, if_true, List.reverse_nil, runWalk, transformKids]
  | cons c l ih =>
    intro pending batch kids h
    have nil : ∀ c ∈ ([] : List CT), isWalkCT c = true := by simp
    rw [List.cons_append]
    have push : isWalkCT c = true → ∀ d ∈ c :: pending, isWalkCT d = true := by
      intro hc d hd
      rcases List.mem_cons.1 hd with rfl | hd
      · exact hc
      · exact h d hd
    cases c with
    | prune s strip =>
      simp only [runCT]
      split
      · exact ih _ _ _ nil
      · exact ih _ _ _ nil
    | sanitize C' => simp only [runCT]; exact ih _ _ _ nil
    | boundary => simp only [runCT]; exact ih _ _ _ nil
    | editDocument f => simp only [runCT]; exact ih _ _ _ nil
    | harden => simp only [runCT]; exact ih _ _ _ nil
    | _ => simp only [runCT]; exact ih _ _ _ (push rfl)

theorem splitStages_last (e : Bool) (t : Trans) : ∀ (specs pending : List TransSpec), ∃ init st,
    splitStages pending (specs ++ [.one e t]) = init ++ [st ++ [.one e t]] := by
  intro specs
  induction specs with
  | nil =>
    intro pending
    exact ⟨[], pending.reverse, by simp [splitStages]⟩
  | cons s specs ih =>
    intro pending
    rw [List.cons_append]
    cases s with
    | one e' t' =>
      obtain ⟨init, st, h⟩ := ih (.one e' t' :: pending)
      exact ⟨init, st, by rw [splitStages.eq_def]; exact h⟩
    | stage e' l =>
      cases e' with
      | false =>
        obtain ⟨init, st, h⟩ := ih pending
        exact ⟨init, st, by simpa [splitStages] using h⟩
      | true =>
        obtain ⟨init, st, h⟩ := ih []
        exact ⟨(if pending.isEmpty then [] else [pending.reverse]) ++ l :: init, st, by simp [splitStages, h]⟩

theorem compile_last (R : TransEnv) (specs : List TransSpec) (C : SanCfg) : ∃ l, compileT R (specs ++ [.one true (.sanitize C)]) = l ++ [.sanitize C] := by
  unfold compileT
  split
  · obtain ⟨init, st, h⟩ := splitStages_last true (.sanitize C) specs []
    rw [h, List.flatMap_append]
    refine ⟨(init.flatMap fun st => CT.boundary :: (flattenSpecs st).flatMap fun p => lowerAll R [p]) ++ CT.boundary :: (flattenSpecs st).flatMap fun p => lowerAll R [p], ?_⟩
    have : lowerAll R [(true, .sanitize C)] = [.sanitize C] := rfl
    simp [flatten_append, flattenSpecs, flattenSpec, this]
  · refine ⟨lowerAll R (flattenSpecs specs), ?_⟩
    simp [flatten_append, flattenSpecs, flattenSpec, lowerAll, lowerT]

/-- The result of a pipeline that ends with `Sanitize` is that of a sanitizing walk. -/
theorem pipeline_sanitized (R : TransEnv) (fuel : List Node → Nat) (specs : List TransSpec) (C : SanCfg) (kids : List Node) :
    ∃ pre kids', transform R fuel (specs ++ [.one true (.sanitize C)]) kids = transformKids R.S C pre (fuel kids') kids' := by
  obtain ⟨l, h⟩ := compile_last R specs C
  rw [transform, h]
  exact runCT_sanitized R fuel C l [] [] kids (by simp)

/-- C93: whatever transforms and stages come before `Sanitize`, with whatever selectors, functions and callbacks, only allowed elements are left. -/
theorem C93_tags (R : TransEnv) (fuel : List Node → Nat) (specs : List TransSpec) (C : SanCfg) (kids : List Node)
    (name : Str) (ns : Option Str) (as : Attrs) (ks : List Node) (tpl : Bool) (content : List Node)
    (hm : Reach (.elem name ns as ks tpl content) (transform R fuel (specs ++ [.one true (.sanitize C)]) kids)) (hp : ProperName name) :
    R.S.E.U.lower name ∈ C.allowedTags := by
  obtain ⟨pre, kids', e⟩ := pipeline_sanitized R fuel specs C kids
  rw [e] at hm
  exact decision_keep (san_elem R.S C pre _ kids' name ns as ks tpl content hp hm).1

/-- C93: … and only allowed attributes. -/
theorem C93_attrs (R : TransEnv) (fuel : List Node → Nat) (specs : List TransSpec) (C : SanCfg) (hN : C.Normal R.S.E.U) (kids : List Node)
    (name : Str) (ns : Option Str) (as : Attrs) (ks : List Node) (tpl : Bool) (content : List Node)
    (hm : Reach (.elem name ns as ks tpl content) (transform R fuel (specs ++ [.one true (.sanitize C)]) kids)) (hp : ProperName name) :
    ∀ q ∈ as, AttrAllowed R.S.E.U.lower C.allowedAttrs C.forceRel name q.1 := by
  obtain ⟨pre, kids', e⟩ := pipeline_sanitized R fuel specs C kids
  rw [e] at hm
  obtain ⟨-, as0, rfl⟩ := san_elem R.S C pre _ kids' name ns as ks tpl content hp hm
  exact post_names R.S C hN name as0

/-- C93: … and URLs only as approved by their rules (as in C25). -/
theorem C93_urls (R : TransEnv) (fuel : List Node → Nat) (specs : List TransSpec) (C : SanCfg) (hN : C.Normal R.S.E.U)
    (hguard : ∀ tag, urlRuleFor C.url tag c%"http-equiv" = none ∧ urlRuleFor C.url tag c%"name" = none) (kids : List Node)
    (name : Str) (ns : Option Str) (as : Attrs) (ks : List Node) (tpl : Bool) (content : List Node)
    (hm : Reach (.elem name ns as ks tpl content) (transform R fuel (specs ++ [.one true (.sanitize C)]) kids)) (hp : ProperName name)
    (k : Str) (v : Option Str) (hk : (k, v) ∈ as) (hr : k ≠ c%"rel") (hs : k ≠ c%"style") (kind : SinkKind)
    (hkind : CheckedAs R.S.E.U C.url (R.S.E.U.lower name) as k kind) :
    ∃ rule u s, urlRuleFor C.url (R.S.E.U.lower name) k = some rule ∧ v = some s ∧
      sinkValue R.S.E C.url rule (R.S.E.U.lower name) k kind u = some s := by
  obtain ⟨pre, kids', e⟩ := pipeline_sanitized R fuel specs C kids
  rw [e] at hm
  obtain ⟨-, as0, hpost⟩ := san_elem R.S C pre _ kids' name ns as ks tpl content hp hm
  exact post_urls R.S C hN hguard name as as0 hpost k v hk hr hs kind (checkedAs_kind _ _ _ _ _ _ hkind)

/-- C93: … and `style` only as the style sanitizer leaves it. -/
theorem C93_style (R : TransEnv) (fuel : List Node → Nat) (specs : List TransSpec) (C : SanCfg) (hN : C.Normal R.S.E.U) (kids : List Node)
    (name : Str) (ns : Option Str) (as : Attrs) (ks : List Node) (tpl : Bool) (content : List Node)
    (hm : Reach (.elem name ns as ks tpl content) (transform R fuel (specs ++ [.one true (.sanitize C)]) kids)) (hp : ProperName name)
    (v : Option Str) (hk : (c%"style", v) ∈ as) :
    ∃ u s, v = some s ∧ sanitizeStyle R.S.E C.cssProps (some C.url) (R.S.E.U.lower name) u = some s := by
  obtain ⟨pre, kids', e⟩ := pipeline_sanitized R fuel specs C kids
  rw [e] at hm
  obtain ⟨-, as0, hpost⟩ := san_elem R.S C pre _ kids' name ns as ks tpl content hp hm
  exact post_style R.S C hN name as as0 hpost v hk

/-- C93: … and no comments, processing instructions or doctypes, as far as the policy drops them. -/
theorem C93_removed (R : TransEnv) (fuel : List Node → Nat) (specs : List TransSpec) (C : SanCfg) (kids : List Node) (m : Node)
    (hm : Reach m (transform R fuel (specs ++ [.one true (.sanitize C)]) kids)) :
    (C.dropComments = true → (∀ d, m ≠ .comment d) ∧ ∀ d, m ≠ .pi d) ∧ (C.dropDoctype = true → ∀ n p s, m ≠ .doctype n p s) := by
  obtain ⟨pre, kids', e⟩ := pipeline_sanitized R fuel specs C kids
  rw [e] at hm
  exact kept_removed R.S C m (san_kept R.S C pre _ kids' m hm)

/-- Not so for transforms after `Sanitize`: they can put anything back. -/
theorem C93_order_matters : ¬ ∀ (R : TransEnv) (fuel : List Node → Nat) (specs : List TransSpec) (C : SanCfg) (kids : List Node)
    (name : Str) (ns : Option Str) (as : Attrs) (ks : List Node) (tpl : Bool) (content : List Node),
    Reach (.elem name ns as ks tpl content) (transform R fuel (.one true (.sanitize C) :: specs) kids) → ProperName name →
    R.S.E.U.lower name ∈ C.allowedTags := by
  intro h
  have := h TransEnv.sample fuelFor [.one true (.editDocument fun _ => [.elem c%"script" (some c%"html") [] [] false []])] {} [] c%"script" (some c%"html") [] []
    false [] (.here (by with_unfolding_all exact List.mem_singleton.2 rfl)) ⟨by decide, by decide⟩
  revert this
  decide +kernel

example : transform TransEnv.sample fuelFor ([.one true (.setAttrs c%"b" [(c%"onclick", some c%"x")]), .stage true [.one true (.drop c%"i")]] ++
    [.one true (.sanitize { allowedTags := [c%"b"] })])
    [.elem c%"b" (some c%"html") [] [.elem c%"i" (some c%"html") [] [.text c%"x"] false [], .text c%"y"] false []] =
    [.elem c%"b" (some c%"html") [] [.text c%"y"] false []] := by
  with_unfolding_all rfl

end JH
