import Verif.Props.Stages
/-! Property C92: where a pipeline falls apart into pipelines that run one after the other, whatever the transforms around are. -/
namespace JH
open Spec

/-- `EditDocument`, `Sanitize` and `HardenRawtext` are done before the transforms after them begin. -/
def Spec.Fence : Trans → Prop
  | .editDocument _ => True
  | .sanitize _ => True
  | .hardenRawtext => True
  | _ => False

/-- `PruneEmpty`. -/
def Spec.IsPrune : Trans → Prop
  | .pruneEmpty _ _ => True
  | _ => False

/-- `MergeAttrs` without tokens, which is compiled to nothing. -/
def Spec.Idle : Trans → Prop
  | .mergeAttrs _ _ tokens => tokens = []
  | _ => False

/-- A transform and the one that comes next are in different walks: a fence, or one of them prunes and the other does not. -/
def Spec.Apart (t : Trans) (next : Option Trans) : Prop :=
  Fence t ∨ ∀ u ∈ next, ¬ (IsPrune t ↔ IsPrune u)

/-- A compiled transform that is never merged with the one after it. -/
def hardCT : CT → Prop
  | .prune _ _ => True
  | .sanitize _ => True
  | .editDocument _ => True
  | .harden => True
  | _ => False

theorem appendCT_under (U : Uni) (x : CT) (A B : List CT) (h : A ≠ [] ∨ ∀ c ∈ B.head?, hardCT c) : appendCT U x (A ++ B) = appendCT U x A ++ B := by
  cases A with
  | nil =>
    have h : ∀ c ∈ B.head?, hardCT c := by simpa using h
    cases B with
    | nil => rw [List.append_nil, List.append_nil]
    | cons c B =>
      have := h c rfl
      cases c <;> first | rfl | exact absurd this id
  | cons a A =>
    cases a with
    | bulk tags => cases x <;> simp [appendCT]; split <;> rfl
    | editAttrs s fs => cases x <;> simp [appendCT]; split <;> rfl
    | decide s fs => cases x <;> simp [appendCT]; split <;> rfl
    | _ => rfl

theorem lowerT_under (R : TransEnv) (t : Trans) (A B : List CT) (h : A ≠ [] ∨ ∀ c ∈ B.head?, hardCT c) : lowerT R t (A ++ B) = lowerT R t A ++ B := by
  cases t with
  | drop s => simp only [lowerT]; split <;> rfl
  | mergeAttrs a b tokens => simp only [lowerT]; split <;> rfl
  | _ => first | rfl | (simp only [lowerT]; exact appendCT_under _ _ _ _ h)

theorem lowerT_ne (R : TransEnv) (t : Trans) (A : List CT) (h : A ≠ []) : lowerT R t A ≠ [] := by
  have ap : ∀ x, appendCT R.S.E.U x A ≠ [] := by
    intro x
    cases A with
    | nil => exact absurd rfl h
    | cons a A => cases a <;> cases x <;> simp [appendCT] <;> split <;> simp
  cases t with
  | drop s => simp only [lowerT]; split <;> simp
  | mergeAttrs a b tokens => simp only [lowerT]; split <;> simp [h]
  | _ => simp only [lowerT]; first | exact ap _ | simp

theorem lowers_under (R : TransEnv) : ∀ (ts : List Trans) (A B : List CT), (A ≠ [] ∨ ∀ c ∈ B.head?, hardCT c) →
    ts.foldl (fun acc t => lowerT R t acc) (A ++ B) = ts.foldl (fun acc t => lowerT R t acc) A ++ B := by
  intro ts
  induction ts with
  | nil => intro _ _ _; rfl
  | cons t ts ih =>
    intro A B h
    rw [List.foldl_cons, List.foldl_cons, lowerT_under R t A B h]
    refine ih _ _ ?_
    rcases h with h | h
    · exact Or.inl (lowerT_ne R t A h)
    · exact Or.inr h

theorem compile_ones (R : TransEnv) (ts : List Trans) : compileT R (ts.map (.one true)) = (ts.foldl (fun acc t => lowerT R t acc) []).reverse := by
  have e : (ts.map (TransSpec.one true)).any TransSpec.isStage = false := by
    rw [List.any_map]
    simp [TransSpec.isStage]
  have f : flattenSpecs (ts.map (TransSpec.one true)) = ts.map fun t => (true, t) := by
    clear e
    induction ts with
    | nil => rfl
    | cons t ts ih => simp [flattenSpecs, flattenSpec, ih]
  rw [compileT, e, if_neg (by simp), f, lowerAll, List.foldl_map]
  simp only [if_true]

theorem runCT_split (R : TransEnv) (fuel : List Node → Nat) (x : CT) (l2 : List CT)
    (h : ∀ pending batch kids, runCT R fuel pending batch (x :: l2) kids = runCT R fuel [] [] l2 (runCT R fuel pending batch [x] kids)) :
    ∀ (l1 pending : List CT) (batch : List (NodeSel × Bool)) (kids : List Node),
      runCT R fuel pending batch (l1 ++ x :: l2) kids = runCT R fuel [] [] l2 (runCT R fuel pending batch (l1 ++ [x]) kids) := by
  intro l1
  induction l1 with
  | nil => exact h
  | cons c l1 ih =>
    intro pending batch kids
    rw [List.cons_append, List.cons_append]
    cases c with
    | prune s strip =>
      simp only [runCT]
      split
      · exact ih _ _ _
      · exact ih _ _ _
    | _ => simp only [runCT]; exact ih _ _ _

/-- The compiled transforms that are prunings. -/
def pruneCT : CT → Prop
  | .prune _ _ => True
  | _ => False

/-- The compiled transforms after which nothing is pending. -/
def fenceCT : CT → Prop
  | .sanitize _ => True
  | .editDocument _ => True
  | .harden => True
  | _ => False

theorem runCT_apart (R : TransEnv) (fuel : List Node → Nat) (x : CT) (l2 : List CT) (h : fenceCT x ∨ ∀ y ∈ l2.head?, ¬ (pruneCT x ↔ pruneCT y))
    (pending : List CT) (batch : List (NodeSel × Bool)) (kids : List Node) :
    runCT R fuel pending batch (x :: l2) kids = runCT R fuel [] [] l2 (runCT R fuel pending batch [x] kids) := by
  by_cases hf : fenceCT x
  · cases x <;> first | exact absurd hf id | (simp only [runCT, runCT.finishWalk, runCT.finishPrune, List.reverse_nil, runWalk, List.isEmpty_nil, if_true])
  have h := h.resolve_left hf
  cases l2 with
  | nil => rw [runCT_nil]
  | cons y l2 =>
    have h := h y rfl
    by_cases hx : pruneCT x
    · have hy : ¬ pruneCT y := fun hy => h ⟨fun _ => hy, fun _ => hx⟩
      cases x with
      | prune s strip =>
        cases y <;> first | exact absurd trivial hy | skip
        all_goals
          simp only [runCT, runCT.finishWalk, runCT.finishPrune, List.reverse_nil, runWalk, List.isEmpty_nil, if_true]
          split <;> simp
      | _ => exact absurd hx id
    · have hy : pruneCT y := by
        refine Classical.byContradiction fun hy => h ⟨fun h => absurd h hx, fun h => absurd h hy⟩
      cases y with
      | prune s strip =>
        cases x <;> first | exact absurd trivial hx | exact absurd trivial hf | skip
        all_goals
          simp only [runCT, runCT.finishWalk, runCT.finishPrune, List.reverse_nil, runWalk, List.isEmpty_nil, if_true]
      | _ => exact absurd hy id

/-- How one transform is compiled: at most one compiled transform more, or merged with the last. -/
theorem lowerT_fence (R : TransEnv) (t : Trans) (acc : List CT) (h : Fence t) : ∃ c, lowerT R t acc = c :: acc ∧ fenceCT c ∧ hardCT c := by
  cases t <;> first | exact absurd h id | exact ⟨_, rfl, trivial, trivial⟩

theorem lowerT_prune (R : TransEnv) (t : Trans) (acc : List CT) (h : IsPrune t) : ∃ c, lowerT R t acc = c :: acc ∧ pruneCT c ∧ hardCT c := by
  cases t <;> first | exact absurd h id | exact ⟨_, rfl, trivial, trivial⟩

theorem lowerT_other (R : TransEnv) (t : Trans) (acc : List CT) (h : ¬ IsPrune t) (hi : ¬ Idle t) : ∃ c l, lowerT R t acc = c :: l ∧ ¬ pruneCT c := by
  have ap : ∀ x, ¬ pruneCT x → ∃ c l, appendCT R.S.E.U x acc = c :: l ∧ ¬ pruneCT c := by
    intro x hx
    cases acc with
    | nil => exact ⟨x, [], rfl, hx⟩
    | cons a A =>
      cases a <;> cases x <;> simp only [appendCT] <;> first | exact ⟨_, _, rfl, hx⟩ | (split <;> exact ⟨_, _, rfl, fun h => h⟩)
  cases t with
  | pruneEmpty _ _ => exact absurd trivial h
  | drop s => simp only [lowerT]; split <;> exact ⟨_, _, rfl, fun h => h⟩
  | mergeAttrs a b tokens =>
    simp only [lowerT]
    split
    · rename_i e; exact absurd (List.isEmpty_iff.mp e) hi
    · exact ⟨_, _, rfl, fun h => h⟩
  | decide _ _ => simp only [lowerT]; exact ap _ fun h => h
  | editAttrs _ _ => simp only [lowerT]; exact ap _ fun h => h
  | dropAttrs _ _ => simp only [lowerT]; exact ap _ fun h => h
  | allowlistAttrs _ _ => simp only [lowerT]; exact ap _ fun h => h
  | dropUrlAttrs _ _ => simp only [lowerT]; exact ap _ fun h => h
  | allowStyleAttrs _ _ _ => simp only [lowerT]; exact ap _ fun h => h
  | _ => exact ⟨_, _, rfl, fun h => h⟩

theorem lowers_last (R : TransEnv) : ∀ (ts : List Trans) (c : CT), ∃ l, ts.foldl (fun acc t => lowerT R t acc) [c] = l ∧ (∀ d ∈ l.getLast?, pruneCT d → pruneCT c) ∧ (pruneCT c → ∀ d ∈ l.getLast?, pruneCT d) := by
  have key : ∀ (t : Trans) (l : List CT) (c : CT), (∀ d ∈ l.getLast?, (pruneCT d ↔ pruneCT c)) → l ≠ [] → ∀ d ∈ (lowerT R t l).getLast?, (pruneCT d ↔ pruneCT c) := by
    intro t l c h hne
    obtain ⟨a, A, rfl⟩ := List.exists_cons_of_ne_nil hne
    have push : ∀ x, ∀ d ∈ (x :: a :: A).getLast?, (pruneCT d ↔ pruneCT c) := by
      intro x d hd
      rw [List.getLast?_cons_cons] at hd
      exact h d hd
    have swap : ∀ b, (pruneCT b ↔ pruneCT a) → ∀ d ∈ (b :: A).getLast?, (pruneCT d ↔ pruneCT c) := by
      intro b hb d hd
      cases A with
      | nil =>
        rw [List.getLast?_singleton, Option.mem_some_iff] at hd
        subst hd
        rw [hb]
        exact h a rfl
      | cons a' A => exact h d (by rw [List.getLast?_cons_cons] at hd ⊢; exact hd)
    have ap : ∀ x, ∀ d ∈ (appendCT R.S.E.U x (a :: A)).getLast?, (pruneCT d ↔ pruneCT c) := by
      intro x
      cases a with
      | bulk tags =>
        cases x <;> simp only [appendCT] <;> first | exact push _ | skip
        split
        · exact swap _ Iff.rfl
        · exact push _
      | editAttrs s fs =>
        cases x <;> simp only [appendCT] <;> first | exact push _ | skip
        split
        · exact swap _ Iff.rfl
        · exact push _
      | decide s fs =>
        cases x <;> simp only [appendCT] <;> first | exact push _ | skip
        split
        · exact swap _ Iff.rfl
        · exact push _
      | _ => exact push _
    cases t with
    | drop s => simp only [lowerT]; split <;> exact push _
    | mergeAttrs a b tokens =>
      simp only [lowerT]
      split
      · exact h
      · exact push _
    | decide _ _ => simp only [lowerT]; exact ap _
    | editAttrs _ _ => simp only [lowerT]; exact ap _
    | dropAttrs _ _ => simp only [lowerT]; exact ap _
    | allowlistAttrs _ _ => simp only [lowerT]; exact ap _
    | dropUrlAttrs _ _ => simp only [lowerT]; exact ap _
    | allowStyleAttrs _ _ _ => simp only [lowerT]; exact ap _
    | _ => exact push _
  have all : ∀ (ts : List Trans) (l : List CT) (c : CT), (∀ d ∈ l.getLast?, (pruneCT d ↔ pruneCT c)) → l ≠ [] →
      ∀ d ∈ (ts.foldl (fun acc t => lowerT R t acc) l).getLast?, (pruneCT d ↔ pruneCT c) := by
    intro ts
    induction ts with
    | nil => intro l c h _; exact h
    | cons t ts ih => intro l c h hne; exact ih _ _ (key t l c h hne) (lowerT_ne R t l hne)
  intro ts c
  have := all ts [c] c (by intro d hd; simp at hd; subst hd; exact Iff.rfl) (by simp)
  exact ⟨_, rfl, fun d hd => (this d hd).mp, fun hc d hd => (this d hd).mpr hc⟩

/-- C92: between a fence and what follows it, and between pruning and anything else, a pipeline can be cut: the transforms after the cut work on the
result of those before it. -/
theorem C92_apart (R : TransEnv) (fuel : List Node → Nat) (ts1 ts2 : List Trans) (t : Trans) (kids : List Node) (h : Apart t ts2.head?) (ht : ¬ Idle t)
    (h2 : ∀ u ∈ ts2.head?, ¬ Idle u) :
    transform R fuel ((ts1 ++ t :: ts2).map (.one true)) kids =
      transform R fuel (ts2.map (.one true)) (transform R fuel ((ts1 ++ [t]).map (.one true)) kids) := by
  have go : ∃ c A, (ts1 ++ [t]).foldl (fun acc t => lowerT R t acc) [] = c :: A ∧
      (ts1 ++ t :: ts2).foldl (fun acc t => lowerT R t acc) [] = ts2.foldl (fun acc t => lowerT R t acc) [] ++ c :: A ∧
      (fenceCT c ∨ ∀ y ∈ (ts2.foldl (fun acc t => lowerT R t acc) []).getLast?, ¬ (pruneCT c ↔ pruneCT y)) := by
    rw [List.foldl_append, List.foldl_append]
    simp only [List.foldl_cons, List.foldl_nil]
    by_cases hf : Fence t
    · obtain ⟨c, e, h1, h2⟩ := lowerT_fence R t (ts1.foldl (fun acc t => lowerT R t acc) []) hf
      refine ⟨c, _, e, ?_, Or.inl h1⟩
      rw [e]
      exact lowers_under R ts2 [] (c :: _) (Or.inr (by simp [h2]))
    have h := h.resolve_left hf
    by_cases hp : IsPrune t
    · obtain ⟨c, e, h1, hh⟩ := lowerT_prune R t (ts1.foldl (fun acc t => lowerT R t acc) []) hp
      refine ⟨c, _, e, ?_, Or.inr ?_⟩
      · rw [e]
        exact lowers_under R ts2 [] (c :: _) (Or.inr (by simp [hh]))
      cases ts2 with
      | nil => intro y hy; simp at hy
      | cons u ts2 =>
        have hu := h u rfl
        have hu : ¬ IsPrune u := fun hu' => hu ⟨fun _ => hu', fun _ => hp⟩
        obtain ⟨d, l, e2, h3⟩ := lowerT_other R u [] hu (h2 u rfl)
        have l0 : l = [] := by
          have : (lowerT R u []).length ≤ 1 := by
            cases u with
            | drop s => simp only [lowerT]; split <;> simp
            | mergeAttrs a b tokens => simp only [lowerT]; split <;> simp
            | _ => simp [lowerT, appendCT]
          rw [e2, List.length_cons] at this
          exact List.eq_nil_of_length_eq_zero (by omega)
        subst l0
        rw [List.foldl_cons, e2]
        obtain ⟨l, e3, h4, _⟩ := lowers_last R ts2 d
        rw [e3]
        intro y hy hc
        exact h3 (h4 y hy (hc.mp h1))
    · obtain ⟨c, A, e, h1⟩ := lowerT_other R t (ts1.foldl (fun acc t => lowerT R t acc) []) hp ht
      cases ts2 with
      | nil => exact ⟨c, A, e, by simp [e], Or.inr (by simp)⟩
      | cons u ts2 =>
        have hu : IsPrune u := by
          refine Classical.byContradiction fun hu => h u rfl ⟨fun h => absurd h hp, fun h => absurd h hu⟩
        refine ⟨c, A, e, ?_, Or.inr ?_⟩
        · obtain ⟨d, e2, _, _⟩ := lowerT_prune R u (c :: A) hu
          obtain ⟨d', e2', _, _⟩ := lowerT_prune R u [] hu
          have dd : d = d' := by
            cases u <;> first | exact absurd hu id | (simp only [lowerT] at e2 e2'; simp at e2 e2'; rw [← e2, ← e2'])
          subst dd
          rw [List.foldl_cons, e, e2, List.foldl_cons, e2']
          exact lowers_under R ts2 [d] (c :: A) (Or.inl (by simp))
        · obtain ⟨d', e2', h3, _⟩ := lowerT_prune R u [] hu
          rw [List.foldl_cons, e2']
          obtain ⟨l, e3, _, h4⟩ := lowers_last R ts2 d'
          rw [e3]
          intro y hy hc
          exact h1 (hc.mpr (h4 h3 y hy))
  obtain ⟨c, A, e1, e2, h3⟩ := go
  simp only [transform]
  rw [compile_ones, compile_ones, compile_ones, e1, e2, List.reverse_append, List.reverse_cons, List.append_assoc, List.singleton_append]
  exact runCT_split R fuel c _ (runCT_apart R fuel c _ (by rwa [List.head?_reverse])) _ _ _ _

/-- C92: the function of `EditDocument` gets the result of the transforms before it. -/
theorem C92_edit_document (R : TransEnv) (fuel : List Node → Nat) (ts : List Trans) (f : List Node → List Node) (kids : List Node) :
    transform R fuel ((ts ++ [Trans.editDocument f]).map (.one true)) kids = f (transform R fuel (ts.map (.one true)) kids) := by
  simp only [transform]
  rw [compile_ones, compile_ones, List.foldl_append]
  simp only [List.foldl_cons, List.foldl_nil, lowerT, List.reverse_cons]
  have key : ∀ (l pending : List CT) (batch : List (NodeSel × Bool)) (kids : List Node),
      runCT R fuel pending batch (l ++ [CT.editDocument f]) kids = f (runCT R fuel pending batch l kids) := by
    intro l
    induction l with
    | nil =>
      intro pending batch kids
      simp only [List.nil_append, runCT, runCT.finishWalk, runCT.finishPrune, List.reverse_nil, runWalk, List.isEmpty_nil, if_true]
    | cons c l ih =>
      intro pending batch kids
      rw [List.cons_append]
      cases c with
      | prune s strip =>
        simp only [runCT]
        split
        · exact ih _ _ _
        · exact ih _ _ _
      | _ => simp only [runCT]; exact ih _ _ _
  exact key _ _ _ _

/-- `[Unwrap("div"), EditDocument(take 1), PruneEmpty("p"), Drop("script")]` on `<div><p></p><script></script></div>x`: cut after the document edit
and around the pruning. -/
example : Apart (.editDocument fun l => l.take 1) [Trans.pruneEmpty c%"p" true].head? ∧ Apart (.pruneEmpty c%"p" true) [Trans.drop c%"script"].head? ∧
    Apart (.unwrap c%"div") [Trans.pruneEmpty c%"p" true].head? ∧ ¬ Apart (.unwrap c%"div") [Trans.drop c%"script"].head? := by
  simp [Apart, Fence, IsPrune]

example : transform TransEnv.sample fuelFor ([.unwrap c%"div", .editDocument (·.take 1), .pruneEmpty c%"p" true].map (.one true))
    [.elem c%"div" (some c%"html") [] [.elem c%"p" (some c%"html") [] [] false [], .elem c%"script" (some c%"html") [] [] false []] false []] = [] := by
  have e := C92_apart TransEnv.sample fuelFor [.unwrap c%"div"] [.pruneEmpty c%"p" true] (.editDocument (·.take 1))
    [.elem c%"div" (some c%"html") [] [.elem c%"p" (some c%"html") [] [] false [], .elem c%"script" (some c%"html") [] [] false []] false []]
    (Or.inl trivial) (fun h => h) (by simp [Idle])
  refine List.eq_nil_of_length_eq_zero ?_
  decide +kernel

end JH
