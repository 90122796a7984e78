import Verif.Spec.Transforms
/-! Transforms that add no element and change no attribute. -/
namespace JH.Spec

/-- The two nodes are the same but for what is in them: the same element with the same attributes, or the same comment, processing instruction or
doctype. -/
def SameButContents : Node → Node → Prop
  | .elem name ns as _ tpl _, .elem name' ns' as' _ tpl' _ => name = name' ∧ ns = ns' ∧ as = as' ∧ tpl = tpl'
  | .comment d, .comment d' => d = d'
  | .pi d, .pi d' => d = d'
  | .doctype n p s, .doctype n' p' s' => n = n' ∧ p = p' ∧ s = s'
  | .doc _, .doc _ => True
  | _, _ => False

/-- Transforms that remove nodes, replace them by what is in them or by text, or change text: `Drop`, `Unwrap`, `Escape`, `Empty`, `PruneEmpty`,
`DropComments`, `DropDoctype`, `DropForeignNamespaces`, `CollapseWhitespace`, `HardenRawtext`, and `Decide` with any callback (that does not
unwrap or escape objects which are no elements but are named like a text node, `#…`; no parser makes them). -/
def Removing : Trans → Prop
  | .drop _ => True
  | .unwrap _ => True
  | .escape _ => True
  | .empty _ => True
  | .pruneEmpty _ _ => True
  | .dropComments => True
  | .dropDoctype => True
  | .dropForeign => True
  | .collapseWs _ _ _ => True
  | .hardenRawtext => True
  | .decide _ f => ∀ name ns as kids tpl content, ¬ ProperName name → f (.elem name ns as kids tpl content) ≠ .unwrap ∧ f (.elem name ns as kids tpl content) ≠ .escape
  | _ => False

mutual
/-- Every transform in the specification is removing, at any depth in stages. -/
def RemovingSpec : TransSpec → Prop
  | .one _ t => Removing t
  | .stage _ l => RemovingSpecs l
/-- The same for a list. -/
def RemovingSpecs : List TransSpec → Prop
  | [] => True
  | s :: r => RemovingSpec s ∧ RemovingSpecs r
end

end JH.Spec
