import Verif.Spec.Sanitize
import Verif.Spec.TextOps
import Verif.Model.Report
/-! What the findings of the sanitizer say, and when two trees are the same up to what is not reported. -/
namespace JH.Spec

/-- The finding names the tag `t`. -/
def Finding.NamesTag (t : Str) (f : Finding) : Prop := f = .foreign t ∨ f = .dropped t ∨ f = .notAllowed t

/-- The finding is about the attribute whose name in lower case is `k`. -/
def Finding.NamesAttr (k : Str) (f : Finding) : Prop :=
  f = .attr k ∨ f = .url k ∨ f = .urlNoRule k ∨ (f = .style ∧ k = c%"style")

mutual
/-- The same tree up to attributes, which are compared by `R` (given the element's name). -/
def SameTree (R : Str → Attrs → Attrs → Prop) : Node → Node → Prop
  | .elem name ns as kids tpl content, m =>
    ∃ as' kids' content', m = .elem name ns as' kids' tpl content' ∧ R name as as' ∧ SameTrees R kids kids' ∧
      (if tpl then SameTrees R content content' else content' = content)
  | .doc kids, m => ∃ kids', m = .doc kids' ∧ SameTrees R kids kids'
  | .text d, m => m = .text d
  | .comment d, m => m = .comment d
  | .pi d, m => m = .pi d
  | .doctype a b c, m => m = .doctype a b c
/-- The same for lists. -/
def SameTrees (R : Str → Attrs → Attrs → Prop) : List Node → List Node → Prop
  | [], l => l = []
  | n :: ns, l => ∃ m ms, l = m :: ms ∧ SameTree R n m ∧ SameTrees R ns ms
end

/-- An element whose name in lower case is `t` occurs in `l`, with attributes that satisfy `P` (given its name). -/
def HasElem (lower : Str → Str) (l : List Node) (t : Str) (P : Str → Attrs → Prop) : Prop :=
  ∃ name ns as kids tpl content, Reach (.elem name ns as kids tpl content) l ∧ lower name = t ∧ P name as

/-- The finding is right: the source `l` contains what it speaks about, and the policy objects to it. -/
def Justified (lower : Str → Str) (C : SanCfg) (l : List Node) : Finding → Prop
  | .foreign t => HasElem lower l t (fun _ _ => True) ∧ ∃ m, Reach m l ∧ Foreign lower m
  | .dropped t => HasElem lower l t (fun _ _ => True) ∧ t ∉ C.allowedTags ∧ t ∈ C.dropContent
  | .notAllowed t => HasElem lower l t (fun _ _ => True) ∧ t ∉ C.allowedTags ∧ t ∉ C.dropContent
  | .invisibleText => C.stripInv = true ∧ ((∃ d, Reach (.text d) l ∧ ∃ c ∈ d, Invisible c) ∨ (C.handling = .escape ∧ ∃ t ∉ C.allowedTags, HasElem lower l t fun _ _ => True))
  | .invisibleAttrs ks => C.stripInv = true ∧ ks ≠ [] ∧
      ∃ t, HasElem lower l t fun _ as => ∀ k ∈ ks, ∃ v, (k, some v) ∈ as ∧ ∃ c ∈ v, Invisible c
  | .attr k => ∃ t ∈ C.allowedTags, HasElem lower l t fun name as => (∃ p ∈ as, lower p.1 = k) ∧ ¬ AttrAllowed lower C.allowedAttrs C.forceRel name k
  | .url k => ∃ t ∈ C.allowedTags, HasElem lower l t fun _ as => (∃ p ∈ as, lower p.1 = k) ∧ (isSinkAttr k = true ∨ urlRuleFor C.url t k ≠ none)
  | .urlNoRule k => ∃ t ∈ C.allowedTags, HasElem lower l t fun _ as => (∃ p ∈ as, lower p.1 = k) ∧ isSinkAttr k = true ∧ urlRuleFor C.url t k = none
  | .style => C.cssProps ≠ [] ∧ ∃ t ∈ C.allowedTags, HasElem lower l t fun _ as => ∃ p ∈ as, lower p.1 = c%"style"
  | .comment => C.dropComments = true ∧ C.handling ≠ .escape ∧ ∃ d, Reach (.comment d) l ∨ Reach (.pi d) l
  | .doctype => C.dropDoctype = true ∧ ∃ a b c, Reach (.doctype a b c) l
  | .rawChild t => (t = c%"script" ∨ t = c%"style") ∧ HasElem lower l t fun _ _ => True
  | .rawEnd t => (t = c%"script" ∨ t = c%"style") ∧ HasElem lower l t fun _ _ => True
  | .rawStyle => HasElem lower l c%"style" fun _ _ => True

end JH.Spec
