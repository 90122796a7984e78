import Verif.Model.Py

/-! Model of `_glob_match` (/repo/src/justhtml/transforms/compile.py:205-246). -/
namespace JH

/-- transforms/compile.py:223-246: the two loops. `p` and `t` are the suffixes of pattern and text from `p_i` and `t_i`; `star` is
`none` for `star_i = -1`, otherwise the suffixes of the pattern from `star_i + 1` and of the text from `match_i`.
`fuel` bounds the iterations; `none` = fuel exhausted (`glob_terminates`: it never is). -/
def globLoop : Nat → Str → Str → Option (Str × Str) → Option Bool
  | 0, _, _, _ => none
  | _ + 1, p, [], _ => some (p.all (· = '*'))
  | n + 1, p, c :: t, star =>
    if p.head? = some '?' || p.head? = some c then globLoop n p.tail t star
    else if p.head? = some '*' then globLoop n p.tail (c :: t) (some (p.tail, c :: t))
    else match star with
      | some (sp, st) => globLoop n sp st.tail (some (sp, st.tail))
      | none => some false

/-- transforms/compile.py:205-246 `_glob_match(pattern, text)`. -/
def globMatch (p t : Str) : Option Bool :=
  if p = ['*'] then some true
  else if !p.contains '*' && !p.contains '?' then some (p = t)
  else globLoop ((p.length + 2) * ((t.length + 1) * (t.length + 1))) p t none

end JH
