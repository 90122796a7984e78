import Verif.Spec.Selector
/-! How selectors are written: which texts spell which syntax tree. This is the grammar of CSS selectors, not a parser: no tokens, no positions, no
state. The trees have key 0 everywhere. -/
namespace JH.Spec

/-- Characters of names: letters, digits, `_`, `-` and everything beyond ASCII, but no white space. -/
def NameCh (U : Uni) (c : Char) : Prop :=
  (U.isAlpha c = true ∨ U.isDigit c = true ∨ c = '_' ∨ c = '-' ∨ 127 < c.toNat) ∧ U.isSpace c = false

/-- A name. -/
def Ident (U : Uni) (s : Str) : Prop := s ≠ [] ∧ ∀ c ∈ s, NameCh U c

/-- A tag name does not start with a digit. -/
def TagIdent (U : Uni) (s : Str) : Prop :=
  Ident U s ∧ ∀ c, s.head? = some c → U.isAlpha c = true ∨ c = '_' ∨ c = '-' ∨ 127 < c.toNat

/-- White space. -/
def Blank (w : Str) : Prop := ∀ c ∈ w, isHtmlSpace c = true

/-- The text between quotes `q` spells a value: a backslash makes the next character literal. -/
inductive EscapedIn (q : Char) : Str → Str → Prop
  | nil : EscapedIn q [] []
  | plain {c : Char} {b v : Str} : c ≠ q → c ≠ '\\' → EscapedIn q b v → EscapedIn q (c :: b) (c :: v)
  | esc {c : Char} {b v : Str} : EscapedIn q b v → EscapedIn q ('\\' :: c :: b) (c :: v)

/-- The value of an attribute selector, in quotes or without. -/
def ValueText (t v : Str) : Prop :=
  (∃ q b, (q = '"' ∨ q = '\'') ∧ t = q :: b ++ [q] ∧ EscapedIn q b v) ∨
    (t = v ∧ (∀ c ∈ v, isHtmlSpace c = false ∧ c ≠ ']') ∧ ∀ c, v.head? = some c → c ≠ '"' ∧ c ≠ '\'')

/-- Parentheses match, when `d` are open. -/
def balanced : Nat → Str → Bool
  | d, [] => d == 0
  | d, c :: s => if c = '(' then balanced (d + 1) s else if c = ')' then (match d with | 0 => false | d + 1 => balanced d s) else balanced d s

/-- The argument of a pseudo-class: not empty, no white space at its ends, and its parentheses match. -/
def ArgText (U : Uni) (a : Str) : Prop :=
  a ≠ [] ∧ (∀ c, a.head? = some c → U.isSpace c = false) ∧ (∀ c, a.getLast? = some c → U.isSpace c = false) ∧ balanced 0 a = true

/-- Spellings of a simple selector; `inner` are the spellings of the selectors that can stand in `:not`. -/
inductive SimpleText (U : Uni) (inner : Str → Sel → Prop) : Str → Simple → Prop
  | tag {t : Str} : TagIdent U t → SimpleText U inner t (.tag (U.lower t))
  | universal : SimpleText U inner c%"*" .universal
  | id {t : Str} : Ident U t → SimpleText U inner ('#' :: t) (.id t)
  | cls {t : Str} : Ident U t → SimpleText U inner ('.' :: t) (.cls t)
  | hasAttr {t a b : Str} : Ident U t → Blank a → Blank b → SimpleText U inner ('[' :: (a ++ t ++ b ++ c%"]")) (.attr (U.lower t) none)
  | attr {t op v w a b x y : Str} : Ident U t → op ∈ [c%"=", c%"~=", c%"|=", c%"^=", c%"$=", c%"*="] → ValueText v w → Blank a → Blank b → Blank x → Blank y →
      SimpleText U inner ('[' :: (a ++ t ++ b ++ op ++ x ++ v ++ y ++ c%"]")) (.attr (U.lower t) (some (op, w)))
  | pseudo {t : Str} : Ident U t → SimpleText U inner (':' :: t) (.pseudo (U.lower t) none [])
  | noArg {t a : Str} : Ident U t → Blank a → SimpleText U inner (':' :: (t ++ '(' :: a ++ c%")")) (.pseudo (U.lower t) none [])
  | arg {t a b x : Str} : Ident U t → U.lower t ≠ c%"not" → ArgText U x → Blank a → Blank b →
      SimpleText U inner (':' :: (t ++ '(' :: a ++ x ++ b ++ c%")")) (.pseudo (U.lower t) (some x) [])
  | not {t a b x : Str} {i : Sel} : Ident U t → U.lower t = c%"not" → inner x i → ArgText U x → Blank a → Blank b →
      SimpleText U inner (':' :: (t ++ '(' :: a ++ x ++ b ++ c%")")) (.pseudo (U.lower t) (some x) i)

/-- Spellings of a compound: different simple selectors one after the other, a tag only in front. -/
inductive CompoundText (U : Uni) (inner : Str → Sel → Prop) : Str → List Simple → Prop
  | one {t : Str} {x : Simple} : SimpleText U inner t x → CompoundText U inner t [x]
  | more {t u : Str} {l : List Simple} {x : Simple} : CompoundText U inner t l → SimpleText U inner u x → (∀ n, x ≠ .tag n) → x ∉ l →
      CompoundText U inner (t ++ u) (l ++ [x])

/-- Spellings of a combinator: white space for descendants, otherwise a symbol, with or without white space around it. -/
inductive CombText : Str → Comb → Prop
  | desc {w : Str} : w ≠ [] → Blank w → CombText w .desc
  | child {a b : Str} : Blank a → Blank b → CombText (a ++ '>' :: b) .child
  | adj {a b : Str} : Blank a → Blank b → CombText (a ++ '+' :: b) .adj
  | sib {a b : Str} : Blank a → Blank b → CombText (a ++ '~' :: b) .sib

/-- Spellings of compounds joined by combinators. -/
inductive ComplexText (U : Uni) (inner : Str → Sel → Prop) : Str → Complex → Prop
  | one {t : Str} {l : List Simple} : CompoundText U inner t l → ComplexText U inner t (.one (.mk 0 l))
  | comb {t w u : Str} {x : Complex} {op : Comb} {l : List Simple} : ComplexText U inner t x → CombText w op → CompoundText U inner u l →
      ComplexText U inner (t ++ w ++ u) (.comb x op (.mk 0 l))

/-- Spellings of a list of different selectors, separated by commas. -/
inductive ListText (U : Uni) (inner : Str → Sel → Prop) : Str → Sel → Prop
  | one {t : Str} {x : Complex} : ComplexText U inner t x → ListText U inner t [x]
  | more {t a b u : Str} {l : Sel} {x : Complex} : ListText U inner t l → Blank a → Blank b → ComplexText U inner u x → x ∉ l →
      ListText U inner (t ++ (a ++ ',' :: b) ++ u) (l ++ [x])

/-- `s` spells the selector `sel`, with at most `k` levels of `:not` in one another. -/
def SelText (U : Uni) : Nat → Str → Sel → Prop
  | 0 => ListText U fun _ _ => False
  | k + 1 => ListText U (SelText U k)

mutual
/-- The same selector with key 0 everywhere. -/
def eraseSimple : Simple → Simple
  | .tag n => .tag n
  | .id n => .id n
  | .cls n => .cls n
  | .universal => .universal
  | .attr n o => .attr n o
  | .pseudo n a i => .pseudo n a (eraseSel i)
def eraseSimples : List Simple → List Simple
  | [] => []
  | s :: ss => eraseSimple s :: eraseSimples ss
def eraseCompound : Compound → Compound
  | .mk _ l => .mk 0 (eraseSimples l)
def eraseComplex : Complex → Complex
  | .one c => .one (eraseCompound c)
  | .comb l o c => .comb (eraseComplex l) o (eraseCompound c)
def eraseSel : List Complex → List Complex
  | [] => []
  | x :: xs => eraseComplex x :: eraseSel xs
end

/-- A selector keeps within the limits at every level of nesting. -/
def FitsLimits (lim : SelLimits) (sel : Sel) : Prop :=
  ∀ k t, Nested k t sel → t ≠ [] → k ≤ lim.maxParseDepth ∧ t.length ≤ max 1 lim.maxListItems ∧
    ∀ x ∈ t, partCount x ≤ max 1 lim.maxParts ∧ ∀ c, PartOf c x → c.simples.length ≤ lim.maxCompound

/-! ### Arguments -/

/-- ASCII digits and their value. -/
def Digits (s : Str) (v : Nat) : Prop := s ≠ [] ∧ s.length < 4300 ∧ (∀ c ∈ s, isDigitC c = true) ∧ v = s.foldl (fun n c => n * 10 + (c.toNat - '0'.toNat)) 0

/-- A sign and its value. -/
def SignText (s : Str) (z : Int) : Prop := (s = c%"+" ∧ z = 1) ∨ (s = c%"-" ∧ z = -1)

/-- A sign or nothing. -/
def OptSign (s : Str) (z : Int) : Prop := (s = [] ∧ z = 1) ∨ SignText s z

/-- Some number of spaces. -/
def Spaces (s : Str) : Prop := ∀ c ∈ s, c = ' '

/-- What stands before the `n`: a sign, a number, both or nothing. -/
inductive CoefText : Str → Int → Prop
  | sign {g : Str} {z : Int} : OptSign g z → CoefText g z
  | num {g ds : Str} {z : Int} {v : Nat} : OptSign g z → Digits ds v → CoefText (g ++ ds) (z * v)

/-- The spellings of `An+B`. -/
inductive NthText : Str → Int → Int → Prop
  | odd {s : Str} : lowerA s = c%"odd" → NthText s 2 1
  | even {s : Str} : lowerA s = c%"even" → NthText s 2 0
  | num {g ds : Str} {z : Int} {v : Nat} : OptSign g z → Digits ds v → NthText (g ++ ds) 0 (z * v)
  | step {t : Str} {a : Int} {n : Char} : CoefText t a → n = 'n' ∨ n = 'N' → NthText (t ++ [n]) a 0
  | full {t x g y ds : Str} {a z : Int} {n : Char} {v : Nat} : CoefText t a → n = 'n' ∨ n = 'N' → Spaces x → SignText g z → Spaces y → Digits ds v →
      NthText (t ++ n :: (x ++ g ++ y ++ ds)) a (z * v)

/-- A value as it is written between quotes `q`: a backslash before quotes and backslashes. -/
def quoteBody (q : Char) (v : Str) : Str := v.flatMap fun c => if c = q ∨ c = '\\' then ['\\', c] else [c]

end JH.Spec
