import Verif.Model.Py
/-! Specification of glob matching (C51). -/
namespace JH.Spec

/-- `*` stands for any sequence, `?` for any one character, every other character for itself. -/
def Glob : Str → Str → Prop
  | [], t => t = []
  | x :: p, t =>
    if x = '*' then ∃ a b, t = a ++ b ∧ Glob p b
    else if x = '?' then ∃ c r, t = c :: r ∧ Glob p r
    else ∃ r, t = x :: r ∧ Glob p r

end JH.Spec
