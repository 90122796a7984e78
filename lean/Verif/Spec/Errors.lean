import Verif.Spec.RoundTrip
/-! Places in a text, markup as a sequence of pieces, and the end tags in it that close nothing (C100). -/
namespace JH.Spec

/-- One character further: a line feed starts a new line. -/
def step (p : Nat × Nat) (c : Char) : Nat × Nat := if c = '\n' then (p.1 + 1, 1) else (p.1, p.2 + 1)

/-- Line and column (from 1) of the character at offset `p`. -/
def place (s : Str) (p : Nat) : Nat × Nat := (s.take p).foldl step (1, 1)

/-- White space. -/
def isBlank (c : Char) : Bool := c ∈ [' ', '\t', '\n', '\x0c', '\r']

/-- The document starts with a doctype, perhaps after white space. -/
def HasDoctype (html : Str) : Prop := ∃ w d r, html = w ++ (d ++ r) ∧ (∀ c ∈ w, isBlank c = true) ∧ lowerA d = c%"<!doctype"

/-- What is found in the input at offset `p`, where an error is reported. -/
inductive Shows (U : Uni) (html : Str) (fragment : Bool) (p : Nat) : (code : Str) → (tag : Option Str) → Prop
  /-- a NUL character -/
  | null : html[p]? = some '\x00' → Shows U html fragment p c%"unexpected-null-character" none
  /-- an end tag of that name -/
  | stray {name r : Str} : html.drop p = c%"</" ++ (name ++ r) → (∀ c ∈ name, isBlank c = false ∧ c ≠ '/' ∧ c ≠ '>') →
      (∀ c ∈ r.head?, isBlank c = true ∨ c = '/' ∨ c = '>') → Shows U html fragment p c%"unexpected-end-tag" (some (U.lower name))
  /-- the end of the input -/
  | comment : p + 1 = html.length → Shows U html fragment p c%"eof-in-comment" none
  | tag : p + 1 = html.length → Shows U html fragment p c%"eof-in-tag" none
  /-- the first character that is not white space, and no doctype -/
  | chars {c : Char} {r : Str} : fragment = false → ¬ HasDoctype html → html.drop p = c :: r → isBlank c = false → (∀ x ∈ html.take p, isBlank x = true) →
      Shows U html fragment p c%"expected-doctype-but-got-chars" none
  /-- the end of the first tag, and no doctype -/
  | start {w name r : Str} : fragment = false → ¬ HasDoctype html → html = w ++ '<' :: (name ++ r) → (∀ x ∈ w, isBlank x = true) → name ≠ [] →
      (∀ c ∈ name, isBlank c = false ∧ c ≠ '/' ∧ c ≠ '>') → (∀ c ∈ r.head?, isBlank c = true ∨ c = '/' ∨ c = '>') → w.length < p →
      html[p]? = some '>' ∨ p + 1 = html.length → Shows U html fragment p c%"expected-doctype-but-got-start-tag" (some (U.lower name))

/-- The inside of a tag after its name: every quote is closed, and outside quotes there is no `>`. -/
inductive Quoted : Str → Prop
  | nil : Quoted []
  | char {c : Char} {s : Str} : c ≠ '"' → c ≠ '\'' → c ≠ '>' → Quoted s → Quoted (c :: s)
  | str {q : Char} {b s : Str} : q = '"' ∨ q = '\'' → q ∉ b → Quoted s → Quoted (q :: (b ++ (q :: s)))

/-- Pieces of markup. -/
inductive Piece
  | text (t : Str)
  | comment (d : Str)
  | decl (d : Str)
  | start (name attrs : Str)
  | close (name attrs : Str)

/-- The text of a piece. -/
def Piece.src : Piece → Str
  | .text t => t
  | .comment d => c%"<!--" ++ d ++ c%"-->"
  | .decl d => c%"<!" ++ d ++ c%">"
  | .start name attrs => '<' :: (name ++ attrs ++ c%">")
  | .close name attrs => c%"</" ++ name ++ attrs ++ c%">"

/-- Pieces that mean what they look like. -/
def Piece.Ok : Piece → Prop
  | .text t => '<' ∉ t
  | .comment d => PlainComment d
  | .decl d => startsWith c%"--" d = false ∧ Quoted d
  | .start name attrs | .close name attrs =>
    PlainTag name ∧ Quoted attrs ∧ ∀ c ∈ attrs.head?, isBlank c = true ∨ c = '/'

/-- The inside of the tag ends in `/`, perhaps followed by white space. -/
def slashed (attrs : Str) : Bool := (attrs.reverse.dropWhile isBlank).head? = some '/'

/-- The tag does not end in `rest`: every `>` is in quotes. -/
def Unclosed (rest : Str) : Prop := ∀ a b, Quoted a → rest ≠ a ++ '>' :: b

/-- An unfinished tag or comment, and the code of its error. -/
inductive Cut : Str → (code : Str) → Prop
  | comment {d : Str} : '>' ∉ d → Cut (c%"<!--" ++ d) c%"eof-in-comment"
  | decl {d : Str} : startsWith c%"--" d = false → Unclosed d → Cut (c%"<!" ++ d) c%"eof-in-tag"
  | start {name attrs : Str} : PlainTag name → (∀ c ∈ attrs.head?, isBlank c = true ∨ c = '/') → Unclosed attrs → Cut ('<' :: (name ++ attrs)) c%"eof-in-tag"
  | close {name attrs : Str} : PlainTag name → (∀ c ∈ attrs.head?, isBlank c = true ∨ c = '/') → Unclosed attrs → Cut (c%"</" ++ (name ++ attrs)) c%"eof-in-tag"

/-- What an error at the end of the input means. -/
def Unfinished (U : Uni) (html code : Str) : Prop :=
  (code = c%"eof-in-tag" → ∃ w c m rest, html = w ++ '<' :: c :: (m ++ rest) ∧ (c = '!' ∨ c = '/' ∨ U.isAlpha c = true) ∧
    (∀ x ∈ m, isBlank x = false ∧ x ≠ '/' ∧ x ≠ '>') ∧ Unclosed rest) ∧
  (code = c%"eof-in-comment" → ∃ w r, html = w ++ (c%"<!--" ++ r) ∧ isIn c%"-->" r = false)

/-- Elements without end tag. -/
def endless : List Str :=
  [c%"area", c%"base", c%"br", c%"col", c%"embed", c%"hr", c%"img", c%"input", c%"link", c%"meta", c%"param", c%"source", c%"track", c%"wbr"]

/-- Elements that an end of a paragraph does not reach across. -/
def walls : List Str :=
  [c%"applet", c%"caption", c%"html", c%"table", c%"td", c%"th", c%"marquee", c%"object", c%"template",
   c%"button"]

/-- Elements whose start tag ends an open paragraph. -/
def paragraphEnders : List Str := blockNames ++ [c%"form", c%"listing", c%"pre", c%"table", c%"xmp"]

/-- A paragraph is open (innermost first) and nothing in between keeps it open. -/
def paragraphOpen : List Str → Bool
  | [] => false
  | n :: o => n = c%"p" || (!walls.contains n && paragraphOpen o)

/-- The open elements after an end tag: the innermost of this name, and all inside it, are closed. -/
def closeTag (name : Str) : List Str → List Str
  | [] => []
  | n :: o => if n = name then o else closeTag name o

/-- The open elements (innermost first) after a start tag. -/
def openTag (name attrs : Str) (o : List Str) : List Str :=
  let o1 := if name ∈ paragraphEnders ∧ paragraphOpen o = true then closeTag c%"p" o else o
  if name ∈ endless ∨ slashed attrs = true then o1 else name :: o1

/-- The end tags that close nothing: offset, name and offset of the `>`. `at_` is the offset of the first piece, `o` what is open there. -/
def strays (at_ : Nat) (o : List Str) : List Piece → List (Nat × Str × Nat)
  | [] => []
  | .start name attrs :: ps => strays (at_ + (Piece.start name attrs).src.length) (openTag name attrs o) ps
  | .close name attrs :: ps =>
    if name = c%"br" ∨ name ∉ o then
      (at_, name, at_ + 2 + name.length + attrs.length) :: strays (at_ + (Piece.close name attrs).src.length) o ps
    else strays (at_ + (Piece.close name attrs).src.length) (closeTag name o) ps
  | .text t :: ps => strays (at_ + t.length) o ps
  | .comment d :: ps => strays (at_ + (Piece.comment d).src.length) o ps
  | .decl d :: ps => strays (at_ + (Piece.decl d).src.length) o ps

mutual
/-- No quotation mark in the name of an attribute. -/
def PlainNames : Node → Prop
  | .elem _ _ attrs kids _ _ => (∀ a ∈ attrs, '"' ∉ a.1 ∧ '\'' ∉ a.1) ∧ PlainNamesL kids
  | _ => True
/-- The same for siblings. -/
def PlainNamesL : List Node → Prop
  | [] => True
  | n :: ns => PlainNames n ∧ PlainNamesL ns
end

end JH.Spec
