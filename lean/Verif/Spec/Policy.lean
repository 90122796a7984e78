import Verif.Model.Policy
/-! Specifications for C36, C37, C38 and C54. -/
namespace JH.Spec

/-- Position of an error; errors without a position come last. -/
def pos (e : PErr) : Nat × Nat := (e.line.getD 1000000000, e.col.getD 1000000000)

/-- Lexicographic order of positions. -/
def posLe (a b : PErr) : Prop := (pos a).1 < (pos b).1 ∨ ((pos a).1 = (pos b).1 ∧ (pos a).2 ≤ (pos b).2)

/-- `out` is `found` sorted by position, with equal positions in discovery order. -/
structure SortedByPosition (found out : List PErr) : Prop where
  perm : out.Perm found
  sorted : out.Pairwise posLe
  stable : ∀ p, out.filter (pos · = p) = found.filter (pos · = p)

/-- Does a configuration `allowed_attributes` list attribute `a` for the element `tag`, directly or under `*`? Names compare
after trimming and lower-casing (`norm`). -/
def Lists (norm : Str → Str) (config : List (Str × List Str)) (tag a : Str) : Prop :=
  a ≠ [] ∧ ∃ key attrs v, (key, attrs) ∈ config ∧ (norm key = tag ∨ norm key = ['*']) ∧ v ∈ attrs ∧ norm v = a

mutual
/-- The transforms outside disabled stages, in order, with their `enabled` flag. -/
def leaves : TSpec → List TSpec
  | .stage true items => leavesL items
  | .stage false _ => []
  | t => [t]
/-- The same for a list. -/
def leavesL : List TSpec → List TSpec
  | [] => []
  | t :: ts => leaves t ++ leavesL ts
end

/-- The plan sanitizes: the sanitizing engine parses, or an enabled sanitize step runs. -/
def Sanitizes : Plan → Prop
  | .safeEngine => True
  | .steps l => ∃ p, some p ∈ l

end JH.Spec
