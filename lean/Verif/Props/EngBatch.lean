import Verif.Lemmas.EngBatch
import Verif.Props.EngSafe
import Verif.Props.EngTree

/-! C109: unwrapping the removed elements in a batch gives the same tree as one by one. -/
namespace JH.Eng

set_option maxRecDepth 100000

section
variable {C : Cfg}

theorem unwrapAll_unwrapped (s : St) (hp : Proper s) (hh : Held s) : Unwrapped s (unwrapAll C s).2 :=
  hp.anyOrder hh C s.toUnwrap.reverse fun _ => List.mem_reverse

theorem batch_unwrapped (s : St) (hp : Proper s) (hh : Held s) : Unwrapped s (unwrapBatch s) :=
  unwrapBatch_view (M := (· ∈ s.toUnwrap)) (fun i hi => (hp.recd i hi).2.1) (fun _ => Iff.rfl) (hp.good hh)

/-- Unwrapping the recorded nodes in the order that `order` gives. -/
def unwrapIn (order : List Nat → List Nat) : EM Unit := fun C s => each unwrapOne (order s.toUnwrap) C s

theorem template_not {html : Str} (h : Spec.NoTag C.E.U c%"template" html) (hC : C.html = dropBom html ∨ C.html = html) : ¬ Named C c%"template" := by
  have h' : Spec.NoTag C.E.U c%"template" C.html := by
    rcases hC with e | e
    · rw [e]; exact noTag_dropBom h
    · rw [e]; exact h
  exact not_named h' rfl (by decide +kernel) (by decide +kernel)

/-- C109, for any configuration of the parser: the batch that the code uses from 32 removed elements on gives the tree that unwrapping them one by one gives. Missing: inputs with
`<template`, whose removed form the parser keeps as a node of its own outside the tree. -/
theorem C109_batch_partial (C : Cfg) [Ok C] (hns : C.ctxNs ≠ some c%"justhtml-parser-only") (h : Spec.NoTag C.E.U c%"template" C.html) : resultB C = result C := by
  refine result_same (m₁ := unwrapRecorded) (m₂ := unwrapAll) hns (template_not h (.inr rfl)) fun s hp hh => ⟨?_, unwrapAll_unwrapped s hp hh⟩
  unfold unwrapRecorded
  split
  · exact unwrapAll_unwrapped s hp hh
  · exact batch_unwrapped s hp hh

/-- C109: the batch on its own, whatever the number of elements. -/
theorem C109_always_partial (C : Cfg) [Ok C] (hns : C.ctxNs ≠ some c%"justhtml-parser-only") (h : Spec.NoTag C.E.U c%"template" C.html) :
    resultWith (fun _ s => ((), unwrapBatch s)) C = result C :=
  result_same (m₁ := fun _ s => ((), unwrapBatch s)) (m₂ := unwrapAll) hns (template_not h (.inr rfl)) fun s hp hh => ⟨batch_unwrapped s hp hh, unwrapAll_unwrapped s hp hh⟩

/-- C109: one by one, in any order. -/
theorem C109_any_order_partial (C : Cfg) [Ok C] (hns : C.ctxNs ≠ some c%"justhtml-parser-only") (h : Spec.NoTag C.E.U c%"template" C.html) (order : List Nat → List Nat)
    (ho : ∀ l i, i ∈ order l ↔ i ∈ l) : resultWith (unwrapIn order) C = result C :=
  result_same (m₁ := unwrapIn order) (m₂ := unwrapAll) hns (template_not h (.inr rfl)) fun s hp hh => ⟨hp.anyOrder hh C (order s.toUnwrap) fun i => ho _ i, unwrapAll_unwrapped s hp hh⟩

/-- The nodes at the end of a parse that unwraps in a batch when the code does. -/
def runB (C : Cfg) : St := (parseB C (init C)).2

/-- C109: with the batch the nodes form a tree too, and the pointers up agree with the pointers down. -/
theorem C109_tree_partial (C : Cfg) [Ok C] (hns : C.ctxNs ≠ some c%"justhtml-parser-only") (h : Spec.NoTag C.E.U c%"template" C.html) :
    (pointersOf (runB C)).IsTree (runB C).heap.length := by
  refine (with_proper (m := unwrapRecorded) hns (template_not h (.inr rfl)) fun s hp hh => ?_).isTree
  unfold unwrapRecorded
  split
  · exact unwrapAll_unwrapped s hp hh
  · exact batch_unwrapped s hp hh

end

seal result run resultB

/-- C109, for the default policy: a document. -/
theorem C109_document_partial (E : UrlEnv) (T : EntTables) (html : Str) (scripting : Bool) (h : Spec.NoTag E.U c%"template" html) :
    resultB (safeCfg E T false html (scripting := scripting)) = result (safeCfg E T false html (scripting := scripting)) :=
  C109_batch_partial _ (by simp [safeCfg]) (noTag_dropBom h)

/-- C109, for the default policy: a fragment in any context. -/
theorem C109_fragment_partial (E : UrlEnv) (T : EntTables) (html ctx : Str) (ctxNs : Option Str) (scripting : Bool) (h : Spec.NoTag E.U c%"template" html)
    (hpo : ctxNs ≠ some c%"justhtml-parser-only") : resultB (safeCfg E T true html ctx ctxNs scripting) = result (safeCfg E T true html ctx ctxNs scripting) :=
  C109_batch_partial _ hpo (noTag_dropBom h)

/-- C109, for a custom policy. -/
theorem C109_policy_partial (C : Cfg) (p : SafePolicy) (sc : Bool) (hp : C.plan = compilePlan C.E.U p sc)
    (hno : ∀ x ∈ [c%"input", c%"option", c%"selectedcontent"], x ∉ p.allowedTags) (hns : C.ctxNs ≠ some c%"justhtml-parser-only")
    (h : Spec.NoTag C.E.U c%"template" C.html) : resultB C = result C := by
  have : Ok C := ⟨.inr ⟨p, sc, hp, hno⟩⟩
  exact C109_batch_partial C hns h

/-- C75 for the batch: the elements of a document have allowed names. -/
theorem C109_allowed_partial (E : UrlEnv) (T : EntTables) (html : Str) (scripting : Bool) (h : Spec.NoTag E.U c%"template" html) (hs : Spec.NoTag E.U c%"selectedcontent" html) :
    Spec.Everywhere (Spec.TagIn defaultDocumentPolicy.allowedTags) (resultB (safeCfg E T false html (scripting := scripting))) := by
  rw [C109_document_partial E T html scripting h]
  exact C75_document_partial E T html scripting hs

/-- 34 nested elements that the policy removes, in two places, and text between them: the batch runs, and only the text remains. -/
def many : Str := c%"<div>a" ++ (List.replicate 33 c%"<x>b").flatten ++ c%"</div>c<x>d"

example : Spec.NoTag Uni.sample c%"template" many := noTag_of (fun _ => rfl) (by decide +kernel)

/-- That batch and its output. -/
example : ((run (safeCfg .sample .sample true many)).toUnwrap.length, toHtmlCompact Uni.sample none (resultB (safeCfg .sample .sample true many))) =
    (34, .ok (c%"<div>a" ++ List.replicate 33 'b' ++ c%"</div>cd")) := by
  with_unfolding_all decide +kernel

/-- What a batch records and does: it moves many nodes at a time: nested and neighbouring elements, with several places to fill. -/
example : (let C := safeCfg .sample .sample true c%"<p>1<x><y>2</y><b>3<y></x>4<y>5</y>6<x>7"
    let s := before C (parseRange C (setup C (rootState C)).2).2
    (s.toUnwrap, (findHolders s s.toUnwrap s.toUnwrap [] []), (unwrapBatch s).heap.map fun n => (n.parent, n.children))) =
    ([3, 4, 8, 11, 14], ([(1, some 3), (6, some 8), (9, none)], [3]),
      [(none, [1]), (some 0, [2, 5, 6, 9]), (some 1, []), (none, []), (none, []), (some 1, []), (some 1, [7]), (some 6, []), (none, []), (some 1, [10, 12, 13, 15]), (some 9, []),
        (none, []), (some 9, []), (some 9, []), (none, []), (some 9, [])]) := by
  with_unfolding_all decide +kernel

end JH.Eng
