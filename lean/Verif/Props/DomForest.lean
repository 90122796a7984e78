import Verif.Lemmas.DomForest
/-! C33, C34, C60, C62: forests, failures, containment, termination. -/
namespace JH
open Spec

/-- C33. After any history of calls, failing ones included, the nodes form a forest. -/
theorem C33_forest_every_history {h : Heap} (r : Reachable h) : Forest h := wf_forest (reach_inv r).wf

/-- C34. A call that raises leaves every node and every attribute as it was. -/
theorem C34_raise_changes_nothing {h h' : Heap} {fuel : Nat} {op : DomOp} (r : Reachable h) (hv : ∀ n ∈ op.operands, n < h.next)
    (he : h.step fuel op = some (h', none)) : h' = h := (step_ok (reach_inv r) hv he).raise rfl

/-- C60, where no call moved the contents of a template: nothing contains itself, following children and template contents. -/
theorem C60_containment_acyclic_partial {h : Heap} (r : TidyReachable h) (n : Nat) : ¬ Inside h n n := fun hi =>
  have i := reach_inv (tidy_reach r)
  above_irrefl i.wf n (inside_above i.wf (tidy_host r) hi)

/-- C60, where no call moved the contents of a template: everything below a node is a finite tree. -/
theorem C60_subtrees_are_trees_partial {h : Heap} (r : TidyReachable h) (a : Nat) : ∃ t, Reads h a t :=
  host_reads (reach_inv (tidy_reach r)).wf (tidy_host r) a

/-- C62. Every call except a deep clone finishes, with one result. -/
theorem C62_calls_finish {h : Heap} (r : Reachable h) (op : DomOp) (hc : ∀ a ov, op ≠ .clone a true ov) :
    ∃ f0 r, ∀ fuel, f0 ≤ fuel → h.step fuel op = some r := step_stable (reach_inv r) op fun a ov e => absurd e (hc a ov)

/-- C62. A deep clone finishes whenever what is below the node is a finite tree. -/
theorem C62_deep_clone_finishes {h : Heap} (r : Reachable h) {a : Nat} {t : Tree} (ha : a < h.next) (ht : Reads h a t) (ov : Option Dict) :
    ∃ f0 r, ∀ fuel, f0 ≤ fuel → h.step fuel (.clone a true ov) = some r :=
  step_stable (reach_inv r) _ fun _ _ e => by cases e; exact ⟨ha, t, ht⟩

/-- C62, where no call moved the contents of a template: every call finishes. -/
theorem C62_calls_finish_tidy {h : Heap} (r : TidyReachable h) (op : DomOp) (hv : ∀ n ∈ op.operands, n < h.next) :
    ∃ f0 r, ∀ fuel, f0 ≤ fuel → h.step fuel op = some r :=
  step_stable (reach_inv (tidy_reach r)) op fun a ov e => by
    subst e
    exact ⟨hv a (by simp [DomOp.operands]), host_reads (reach_inv (tidy_reach r)).wf (tidy_host r) a⟩

/-! ### Histories for the examples -/

/-- Run calls one after the other, ignoring exceptions. -/
def runDom (fuel : Nat) : Heap → List DomOp → Option Heap
  | h, [] => some h
  | h, op :: ops => match h.step fuel op with
    | none => none
    | some (h', _) => runDom fuel h' ops

/-- The operands exist when they are used. -/
def domValid (fuel : Nat) : Heap → List DomOp → Bool
  | _, [] => true
  | h, op :: ops => op.operands.all (fun n => decide (n < h.next)) && match h.step fuel op with
    | none => false
    | some (h', _) => domValid fuel h' ops

theorem runDom_calls {ok : Heap → DomOp → Prop} (hok : ∀ h op, ok h op) {fuel : Nat} : ∀ (ops : List DomOp) {h0 h h' : Heap}, Calls ok h0 h → domValid fuel h ops = true →
    runDom fuel h ops = some h' → Calls ok h0 h' := by
  intro ops
  induction ops with
  | nil => intro h0 h h' c _ he; rw [runDom] at he; cases he; exact c
  | cons op ops ih =>
    intro h0 h h' c hv he
    rw [runDom] at he
    rw [domValid, Bool.and_eq_true] at hv
    rcases hs : h.step fuel op with _ | ⟨h1, r⟩
    · rw [hs] at he; cases he
    · rw [hs] at he hv
      refine ih (.call c ?_ (hok _ _) hs) hv.2 he
      intro n hn
      have := List.all_eq_true.1 hv.1 n hn
      simpa using this

/-- `<template>` (0, its contents 1) and `<div>` (2); `div.append_child(template.template_content)`, then `template.template_content.append_child(template)`. -/
def stolenOps : List DomOp :=
  [.create .template c%"template" (some c%"html") none [], .create .element c%"div" (some c%"html") none [], .append 2 1, .append 1 0]

/-- C60 is false in general: after its contents were inserted elsewhere, a template can be put inside them. -/
theorem C60_template_contents_fails : ∃ h, Reachable h ∧ Inside h 0 0 := by
  rcases hr : runDom 10 {} stolenOps with _ | h
  · exact absurd hr (by simp [runDom, stolenOps, Heap.step]; decide)
  · refine ⟨h, runDom_calls (fun _ _ => trivial) stolenOps (.refl _) (by decide) hr, ?_⟩
    have e1 : (runDom 10 {} stolenOps).map (fun h => (h.obj 0).content) = some (some 1) := by decide
    have e2 : (runDom 10 {} stolenOps).map (fun h => (h.obj 1).children) = some (some [0]) := by decide
    rw [hr] at e1 e2
    simp only [Option.map_some, Option.some.injEq] at e1 e2
    exact .trans (.content e1) (.child e2 (List.mem_singleton.2 rfl))

/-- A check for `Tidy`. -/
def domTidy (fuel : Nat) : Heap → List DomOp → Bool
  | _, [] => true
  | h, op :: ops => (match placed op with
      | none => true
      | some n => (List.range h.next).all fun t => decide ((h.obj t).content ≠ some n)) && match h.step fuel op with
    | none => false
    | some (h', _) => domTidy fuel h' ops

theorem runDom_tidy {fuel : Nat} : ∀ (ops : List DomOp) {h h' : Heap}, TidyReachable h → domValid fuel h ops = true → domTidy fuel h ops = true →
    runDom fuel h ops = some h' → TidyReachable h' := by
  intro ops
  induction ops with
  | nil => intro h h' c _ _ he; rw [runDom] at he; cases he; exact c
  | cons op ops ih =>
    intro h h' c hv ht he
    rw [runDom] at he
    rw [domValid, Bool.and_eq_true] at hv
    rw [domTidy, Bool.and_eq_true] at ht
    rcases hs : h.step fuel op with _ | ⟨h1, r⟩
    · rw [hs] at he; cases he
    · rw [hs] at he hv ht
      refine ih (.call c ?_ ?_ hs) hv.2 ht.2 he
      · intro n hn
        have := List.all_eq_true.1 hv.1 n hn
        simpa using this
      · intro n t hp hc
        have h2 := ht.1
        rw [hp] at h2
        have h3 := ((reach_inv (tidy_reach c)).wf.cont_lt (t := t) hc).1
        have := List.all_eq_true.1 h2 t (List.mem_range.2 h3)
        simp [hc] at this

/-- `<template><b></b></template>` inside a `div`, cloned. -/
def tidyOps : List DomOp :=
  [.create .element c%"div" (some c%"html") none [], .create .template c%"template" (some c%"html") none [], .create .element c%"b" (some c%"html") none [],
   .append 2 3, .append 0 1, .clone 0 true none, .append 2 0]

example : domValid 20 {} tidyOps = true ∧ domTidy 20 {} tidyOps = true := by decide
example : domTidy 20 {} stolenOps = false := by decide
/-- The clone (4) contains a template (5) with contents (7) holding a `b` (8); putting the `div` into the template's contents raises. -/
example : (runDom 20 {} tidyOps).map (fun h => ([h.kids 0, h.kids 2, h.kids 4, h.kids 7, h.kids 8], (h.obj 5).content)) = some ([[1], [3], [5], [8], []], some 7) := by decide

/-- A history with moves, a fragment, failures and a clone: `div` (0), `p` (1), text (2), fragment (3), `b` (4). -/
def sampleOps : List DomOp :=
  [.create .element c%"div" (some c%"html") none [(c%"id", some c%"x")], .create .element c%"p" (some c%"html") none [],
   .create .text c%"#text" none (some c%"hi") [], .create .fragment c%"#document-fragment" none none [],
   .create .element c%"b" (some c%"html") none [], .append 0 1, .append 1 2, .append 3 4, .insertBefore 0 3 (some 1), .append 1 0, .remove 0 2,
   .clone 0 true none, .append 5 2]

example : domValid 20 {} sampleOps = true := by decide
example : (runDom 20 {} sampleOps).map (fun h => [h.kids 0, h.kids 1, h.kids 3, h.kids 5, h.kids 7]) = some [[4, 1], [], [], [6, 7, 2], [8]] := by decide
/-- `p.append_child(div)` raises in that history. -/
example : (runDom 20 {} (sampleOps.take 9)).map (fun h => ((h.step 20 (.append 1 0)).map (·.2) : Option (Option Unit))) = some (some none) := by decide

end JH
