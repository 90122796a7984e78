import Verif.Props.Pipeline
/-! Property C92, stages and disabled transforms. -/
namespace JH
open Spec

theorem runCT_boundary (R : TransEnv) (fuel : List Node → Nat) (l2 : List CT) : ∀ (l1 : List CT) (pending : List CT) (batch : List (NodeSel × Bool))
    (kids : List Node), runCT R fuel pending batch (l1 ++ .boundary :: l2) kids = runCT R fuel [] [] l2 (runCT R fuel pending batch l1 kids) := by
  intro l1
  induction l1 with
  | nil => intro pending batch kids; simp only [List.nil_append, runCT, runCT.finishWalk, runCT.finishPrune]
  | cons c l1 ih =>
    intro pending batch kids
    rw [List.cons_append]
    cases c with
    | prune s strip =>
      simp only [runCT]
      split
      · exact ih _ _ _
      · exact ih _ _ _
    | _ => simp only [runCT]; exact ih _ _ _

/-- The compiled transforms of a stage. -/
def stageCTs (R : TransEnv) (st : List TransSpec) : List CT := (flattenSpecs st).flatMap fun p => lowerAll R [p]

theorem runCT_stages (R : TransEnv) (fuel : List Node → Nat) : ∀ (sts : List (List TransSpec)) (l : List CT) (kids : List Node),
    runCT R fuel [] [] (l ++ sts.flatMap fun st => CT.boundary :: stageCTs R st) kids =
      sts.foldl (fun kids st => runCT R fuel [] [] (stageCTs R st) kids) (runCT R fuel [] [] l kids) := by
  intro sts
  induction sts with
  | nil => intro l kids; simp
  | cons st sts ih =>
    intro l kids
    rw [List.flatMap_cons, List.cons_append, runCT_boundary, ih, List.foldl_cons]

theorem runCT_nil (R : TransEnv) (fuel : List Node → Nat) (kids : List Node) : runCT R fuel [] [] [] kids = kids := by
  simp [runCT, runCT.finishWalk, runCT.finishPrune, runWalk]

theorem transform_staged (R : TransEnv) (fuel : List Node → Nat) (specs : List TransSpec) (kids : List Node) (h : specs.any TransSpec.isStage = true) :
    transform R fuel specs kids = (splitStages [] specs).foldl (fun kids st => runCT R fuel [] [] (stageCTs R st) kids) kids := by
  have := runCT_stages R fuel (splitStages [] specs) [] kids
  rw [runCT_nil] at this
  rw [transform, compileT, if_pos h, ← this]
  rfl

theorem transform_stage (R : TransEnv) (fuel : List Node → Nat) (st : List TransSpec) (kids : List Node) :
    transform R fuel [.stage true st] kids = runCT R fuel [] [] (stageCTs R st) kids := by
  rw [transform_staged R fuel _ kids rfl]
  simp [splitStages]

/-- C92: stages run one after the other, each on the result of the one before. -/
theorem C92_stages (R : TransEnv) (fuel : List Node → Nat) (l : List (List TransSpec)) (kids : List Node) :
    transform R fuel (l.map (.stage true)) kids = l.foldl (fun kids st => transform R fuel [.stage true st] kids) kids := by
  have hs : ∀ l : List (List TransSpec), splitStages [] (l.map (.stage true)) = l := by
    intro l
    induction l with
    | nil => rfl
    | cons st l ih => simp [splitStages, ih]
  cases l with
  | nil =>
    have : transform R fuel [] kids = kids := by
      simp only [transform, compileT, List.any_nil, Bool.false_eq_true, if_false]
      exact runCT_nil R fuel kids
    simpa using this
  | cons st l =>
    rw [transform_staged R fuel _ kids (by simp [TransSpec.isStage]), hs]
    congr 1
    funext kids st
    exact (transform_stage R fuel st kids).symm

/-- C92: a stage with one transform does what the transform does; so a pipeline with every transform in a stage of its own applies them one after the other,
whatever they are. -/
theorem C92_own_stages (R : TransEnv) (fuel : List Node → Nat) (ts : List Trans) (kids : List Node) :
    transform R fuel (ts.map fun t => .stage true [.one true t]) kids = ts.foldl (fun kids t => transform R fuel [.one true t] kids) kids := by
  have h1 : ∀ t kids, transform R fuel [.stage true [.one true t]] kids = transform R fuel [.one true t] kids := by
    intro t kids
    rw [transform_stage]
    simp [transform, compileT, TransSpec.isStage, stageCTs, flattenSpecs, flattenSpec]
  have h2 : ts.map (fun t => TransSpec.stage true [.one true t]) = (ts.map fun t => [TransSpec.one true t]).map (.stage true) := by simp
  rw [h2, C92_stages, List.foldl_map]
  congr 1
  funext kids t
  exact h1 t kids

/-! ### Disabled transforms -/

theorem flatten_append (a b : List TransSpec) : flattenSpecs (a ++ b) = flattenSpecs a ++ flattenSpecs b := by
  induction a with
  | nil => rfl
  | cons s a ih => simp [flattenSpecs, ih]

mutual
theorem flatten_enabled : ∀ s : TransSpec, flattenSpecs (onlyEnabled s) = (flattenSpec s).filter (·.1)
  | .one e t => by cases e <;> simp [onlyEnabled, flattenSpecs, flattenSpec]
  | .stage e l => by
    have h := flatten_enabledL l
    cases e
    · simp [onlyEnabled, flattenSpecs, flattenSpec]
    · simp [onlyEnabled, flattenSpecs, flattenSpec, h]
theorem flatten_enabledL : ∀ l : List TransSpec, flattenSpecs (onlyEnabledL l) = (flattenSpecs l).filter (·.1)
  | [] => rfl
  | s :: r => by
    have h1 := flatten_enabled s
    have h2 := flatten_enabledL r
    rw [onlyEnabledL, flatten_append, h1, h2, flattenSpecs, List.filter_append]
end

theorem lowerAll_filter (R : TransEnv) (l : List (Bool × Trans)) : lowerAll R (l.filter (·.1)) = lowerAll R l := by
  have : ∀ acc, (l.filter (·.1)).foldl (fun acc p => if p.1 then lowerT R p.2 acc else acc) acc =
      l.foldl (fun acc p => if p.1 then lowerT R p.2 acc else acc) acc := by
    induction l with
    | nil => intro _; rfl
    | cons p l ih =>
      intro acc
      obtain ⟨e, t⟩ := p
      cases e
      · simp [ih]
      · simp [ih]
  rw [lowerAll, lowerAll, this]

theorem stageCTs_enabled (R : TransEnv) (st : List TransSpec) : stageCTs R (onlyEnabledL st) = stageCTs R st := by
  rw [stageCTs, stageCTs, flatten_enabledL]
  induction flattenSpecs st with
  | nil => rfl
  | cons p l ih =>
    obtain ⟨e, t⟩ := p
    cases e
    · have : lowerAll R [(false, t)] = [] := rfl
      simp [ih, this]
    · simp [ih]

theorem onlyEnabledL_append (a b : List TransSpec) : onlyEnabledL (a ++ b) = onlyEnabledL a ++ onlyEnabledL b := by
  induction a with
  | nil => rfl
  | cons s a ih => simp [onlyEnabledL, ih]

theorem isStage_enabled (l : List TransSpec) : (onlyEnabledL l).any TransSpec.isStage = l.any TransSpec.isStage := by
  induction l with
  | nil => rfl
  | cons s l ih =>
    rw [onlyEnabledL, List.any_append, List.any_cons, ih]
    congr 1
    cases s with
    | one e t => cases e <;> rfl
    | stage e l => cases e <;> rfl

theorem splitStages_enabled (R : TransEnv) (fuel : List Node → Nat) : ∀ (specs pending : List TransSpec) (kids : List Node),
    (splitStages (onlyEnabledL pending.reverse).reverse (onlyEnabledL specs)).foldl (fun kids st => runCT R fuel [] [] (stageCTs R st) kids) kids =
      (splitStages pending specs).foldl (fun kids st => runCT R fuel [] [] (stageCTs R st) kids) kids := by
  have pend : ∀ (pending : List TransSpec) (rest : List (List TransSpec)) (kids : List Node),
      ((if (onlyEnabledL pending.reverse).reverse.isEmpty then [] else [(onlyEnabledL pending.reverse).reverse.reverse]) ++ rest).foldl
        (fun kids st => runCT R fuel [] [] (stageCTs R st) kids) kids =
      ((if pending.isEmpty then [] else [pending.reverse]) ++ rest).foldl (fun kids st => runCT R fuel [] [] (stageCTs R st) kids) kids := by
    intro pending rest kids
    rw [List.foldl_append, List.foldl_append]
    congr 1
    by_cases h1 : pending = []
    · subst h1; rfl
    · have h1' : pending.isEmpty = false := by simpa using h1
      rw [h1']
      by_cases h2 : onlyEnabledL pending.reverse = []
      · have e := stageCTs_enabled R pending.reverse
        rw [h2] at e
        rw [h2]
        simp only [List.reverse_nil, List.isEmpty_nil, if_true, List.foldl_nil, Bool.false_eq_true, if_false, List.foldl_cons]
        rw [← e]
        exact (runCT_nil R fuel kids).symm
      · have h2' : (onlyEnabledL pending.reverse).reverse.isEmpty = false := by simpa using h2
        rw [h2', List.reverse_reverse]
        simp only [Bool.false_eq_true, if_false, List.foldl_cons, List.foldl_nil, stageCTs_enabled]
  intro specs
  induction specs with
  | nil =>
    intro pending kids
    have := pend pending [] kids
    simpa [splitStages, onlyEnabledL] using this
  | cons s specs ih =>
    intro pending kids
    cases s with
    | one e t =>
      have := ih (.one e t :: pending) kids
      rw [List.reverse_cons, onlyEnabledL_append, List.reverse_append] at this
      rw [onlyEnabledL, splitStages.eq_def pending]
      dsimp only
      rw [← this]
      cases e <;> simp [onlyEnabled, onlyEnabledL, splitStages]
    | stage e l =>
      cases e with
      | false =>
        rw [onlyEnabledL]
        simp only [onlyEnabled, splitStages, Bool.false_eq_true, if_false, List.nil_append, Bool.not_false, if_true]
        exact ih pending kids
      | true =>
        rw [onlyEnabledL]
        simp only [onlyEnabled, splitStages, if_true, List.cons_append, List.nil_append, Bool.not_true, Bool.false_eq_true, if_false]
        rw [pend pending _ kids, List.foldl_append, List.foldl_append, List.foldl_cons, List.foldl_cons, stageCTs_enabled]
        exact ih [] _

/-- C92: disabled transforms and stages have no effect, not even on how the others work together. -/
theorem C92_disabled (R : TransEnv) (fuel : List Node → Nat) (specs : List TransSpec) (kids : List Node) :
    transform R fuel specs kids = transform R fuel (onlyEnabledL specs) kids := by
  by_cases h : specs.any TransSpec.isStage = true
  · have h' := isStage_enabled specs
    rw [h] at h'
    rw [transform_staged R fuel specs kids h, transform_staged R fuel _ kids h']
    exact (splitStages_enabled R fuel specs [] kids).symm
  · have h' := isStage_enabled specs
    rw [Bool.not_eq_true] at h
    rw [h] at h'
    simp only [transform, compileT, h, h', Bool.false_eq_true, if_false]
    rw [flatten_enabledL, lowerAll_filter]

/-- The transforms work one after the other: a pipeline does what its transforms do, each on the result of the one before. -/
def OneAfterTheOther (ts : List Trans) : Prop :=
  ∀ (R : TransEnv) (fuel : List Node → Nat) (kids : List Node), EnoughFuel fuel → (∀ k ∈ kids, Everywhere WellNamed k) →
    transform R fuel (ts.map (.one true)) kids = ts.foldl (fun kids t => transform R fuel [.one true t] kids) kids

/-- Not so when a later transform puts the contents of an element in its place (F53): `[Drop("script"), Unwrap("div")]` leaves the `script` in
`<div><script></script></div>`. -/
theorem C92_unwrap_fails : ¬ OneAfterTheOther [.drop c%"script", .unwrap c%"div"] := by
  intro h
  have := h TransEnv.sample (fun l => 2 * Node.sizeL l + 1)
    [.elem c%"div" (some c%"html") [] [.elem c%"script" (some c%"html") [] [.text c%"x"] false []] false []] (fun _ => by dsimp only; omega) (namedBL_iff _ (by decide))
  have := congrArg (fun l => allText (.doc l)) this
  revert this
  decide +kernel

/-- Not so for two decisions with the same selector (F55): after the first one says "empty", the second is not asked. -/
theorem C92_decide_fails : ¬ OneAfterTheOther [.decide c%"b" fun _ => .empty, .decide c%"b" fun _ => .drop] := by
  intro h
  have := h TransEnv.sample (fun l => 2 * Node.sizeL l + 1)
    [.elem c%"b" (some c%"html") [] [.text c%"x"] false []] (fun _ => by dsimp only; omega) (namedBL_iff _ (by decide))
  have := congrArg List.length this
  revert this
  decide +kernel

/-- Not so for two edits of attributes with the same selector (F59): the second function is called although the element no longer matches. -/
theorem C92_edit_fails : ¬ OneAfterTheOther [.editAttrs c%".x" fun _ _ => some [], .editAttrs c%".x" fun _ _ => some [(c%"id", none)]] := by
  intro h
  have := h TransEnv.sample (fun l => 2 * Node.sizeL l + 1)
    [.elem c%"b" (some c%"html") [(c%"class", some c%"x")] [] false []] (fun _ => by dsimp only; omega) (namedBL_iff _ (by decide))
  have := congrArg (fun l : List Node => l.map fun n => match n with | .elem _ _ as _ _ _ => as.length | _ => 0) this
  revert this
  decide +kernel

end JH
