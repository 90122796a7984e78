import Verif.Spec.Tokenizer
/-! What a CSS parser can read in an inline style (CSS Syntax Level 3), for C23. -/
namespace JH.Spec

/-- The words `w` (lower case) occurs in `out`, in any mix of case. -/
def Occurs (w out : Str) : Prop := ∃ a x b, out = a ++ x ++ b ∧ x.map low = w

/-- Functions that load resources or take their value from elsewhere, other than `url(`. -/
def loadingFunctions : List Str := [c%"var(", c%"src(", c%"image(", c%"image-set(", c%"expression("]

/-- Every `url(` in `out` is immediately followed by a single-quoted approved URL and `)`. -/
def UrlsApproved (ok : Str → Prop) (out : Str) : Prop :=
  ∀ a x b, out = a ++ x ++ b → x.map low = c%"url(" → ∃ u r, b = c%"'" ++ u ++ c%"')" ++ r ∧ ok u

/-- States of a reader that collects the URLs of `url()` in a declaration value: plain text (with the identifier read so far),
comment, string, after `url(`, unquoted URL, quoted URL. -/
inductive CssMode
  | plain (ident : Str)
  | comment
  | str (q : Char)
  | start
  | bare (acc : Str)
  | quoted (q : Char) (acc : Str)

def identChar (c : Char) : Bool := ('a' ≤ low c ∧ low c ≤ 'z') ∨ ('0' ≤ c ∧ c ≤ '9') ∨ c = '-' ∨ c = '_' ∨ 0x80 ≤ c.toNat

/-- The URLs of the `url()` tokens of a value, as a CSS tokenizer reads them (no escapes). -/
def cssLoads : CssMode → Str → List Str
  | .bare acc, [] => [acc]
  | .quoted _ acc, [] => [acc]
  | _, [] => []
  | .plain _, '/' :: '*' :: t => cssLoads .comment t
  | .plain id, c :: t =>
    if c = '"' || c = '\'' then cssLoads (.str c) t
    else if c = '(' && id.map low = c%"url" then cssLoads .start t
    else cssLoads (.plain (if identChar c then id ++ [c] else [])) t
  | .comment, '*' :: '/' :: t => cssLoads (.plain []) t
  | .comment, _ :: t => cssLoads .comment t
  | .str q, c :: t => if c = q then cssLoads (.plain []) t else cssLoads (.str q) t
  | .start, c :: t =>
    if c = ' ' || c = '\t' || c = '\n' then cssLoads .start t
    else if c = '"' || c = '\'' then cssLoads (.quoted c []) t
    else if c = ')' then [] :: cssLoads (.plain []) t
    else cssLoads (.bare [c]) t
  | .bare acc, c :: t => if c = ')' then acc :: cssLoads (.plain []) t else cssLoads (.bare (acc ++ [c])) t
  | .quoted q acc, c :: t => if c = q then acc :: cssLoads (.plain []) t else cssLoads (.quoted q (acc ++ [c])) t

end JH.Spec
