import Verif.Spec.Construct
/-! What the options of the command line mean. -/
namespace JH.Spec

/-- `w` stands between commas or spaces (or the ends) of the text. -/
def ListItem (s w : Str) : Prop :=
  ∃ pre post, s = pre ++ w ++ post ∧ (∀ c ∈ w, c ≠ ',' ∧ c ≠ ' ') ∧ (pre = [] ∨ ∃ p c, pre = p ++ [c] ∧ (c = ',' ∨ c = ' ')) ∧
    (post = [] ∨ ∃ p c, post = c :: p ∧ (c = ',' ∨ c = ' '))

/-- A query returns nodes of the tree. -/
def QueryIn (query : Node → Str → Except Str (List Node)) : Prop := ∀ root s l, query root s = .ok l → ∀ n ∈ l, Reach n [root]

end JH.Spec
