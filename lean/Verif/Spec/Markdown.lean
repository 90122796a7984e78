import Verif.Model.Py
import Verif.Model.Tree
/-! Specifications for C48-C50: the parts of CommonMark that decide how escaped text, code spans and block quotes are read. -/
namespace JH.Spec

/-- ASCII punctuation (CommonMark 2.1). -/
def asciiPunct (c : Char) : Bool :=
  (33 ≤ c.toNat && c.toNat ≤ 47) || (58 ≤ c.toNat && c.toNat ≤ 64) || (91 ≤ c.toNat && c.toNat ≤ 96) ||
  (123 ≤ c.toNat && c.toNat ≤ 126)

/-- Reading of escapes in Markdown text: a backslash before ASCII punctuation is dropped, `&amp;` and `&lt;` are decoded. -/
def mdUnescape : Str → Str
  | [] => []
  | '\\' :: c :: t => if asciiPunct c then c :: mdUnescape t else '\\' :: mdUnescape (c :: t)
  | '&' :: 'a' :: 'm' :: 'p' :: ';' :: t => '&' :: mdUnescape t
  | '&' :: 'l' :: 't' :: ';' :: t => '<' :: mdUnescape t
  | c :: t => c :: mdUnescape t

/-- The text before a position ends with an odd number of backslashes, i.e. the character at that position is escaped. -/
def Escaped (before : Str) : Prop := (before.reverse.takeWhile (· = '\\')).length % 2 = 1

/-- Reading a code span (CommonMark 6.1) after an opening run of `n` backticks: the text up to the first maximal run of exactly
`n` backticks, and what follows. `run` counts the backticks immediately before the current position. -/
def closeSpan (n : Nat) : Nat → Str → Option (Str × Str)
  | run, [] => if run = n then some ([], []) else none
  | run, c :: t =>
    if c = '`' then closeSpan n (run + 1) t
    else if run = n then some ([], c :: t)
    else (closeSpan n 0 t).map fun p => (List.replicate run '`' ++ c :: p.1, p.2)

/-- Reading a code span from the start of `s`: the length of the opening run and what `closeSpan` gives. -/
def readSpan (s : Str) : Option (Str × Str) :=
  closeSpan (s.takeWhile (· = '`')).length 0 (s.dropWhile (· = '`'))

/-- Every `<` of the text is the opening bracket of a link destination, i.e. directly preceded by `](`. -/
def OnlyLinkBrackets (s : Str) : Prop := ∀ a b, s = a ++ '<' :: b → c%"](" <:+ a

/-- The lines of a Markdown document: a line ends at `\n`, `\r` or `\r\n` (CommonMark 2.1). -/
def mdLines : Str → List Str
  | [] => [[]]
  | '\r' :: '\n' :: t => [] :: mdLines t
  | c :: t =>
    if c = '\n' ∨ c = '\r' then [] :: mdLines t
    else match mdLines t with
      | l :: ls => (c :: l) :: ls
      | [] => [[c]]

mutual
/-- No element of the tree has a name in the list. -/
def NoElem (low : Str → Str) (names : List Str) : Node → Prop
  | .doc kids => NoElemL low names kids
  | .elem name _ _ kids _ content => low name ∉ names ∧ NoElemL low names kids ∧ NoElemL low names content
  | _ => True
/-- `NoElem` for each node of a list. -/
def NoElemL (low : Str → Str) (names : List Str) : List Node → Prop
  | [] => True
  | n :: ns => NoElem low names n ∧ NoElemL low names ns
end

end JH.Spec
