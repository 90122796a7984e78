import Verif.Model.Py
/-! Model of the selector tokenizer and parser, /repo/src/justhtml/selector/core.py:20-611 and 1221-1288, 1320-1370. A `SelectorError` is `none`.
The objects of the AST that the matcher's caches are keyed by (`id(compound)`) carry a number, different for each object the parser creates. -/
namespace JH

/-- selector/core.py:20-31 `SelectorLimits` (the fields are natural numbers). -/
structure SelLimits where
  maxMatchDepth : Nat := 100
  maxLength : Nat := 8192
  maxListItems : Nat := 256
  maxCompound : Nat := 512
  maxParts : Nat := 512
  maxParseDepth : Nat := 100
  maxSteps : Nat := 100000000
  maxBytes : Nat := 100000000

/-- The combinators `" "`, `">"`, `"+"` and `"~"`. -/
inductive Comb
  | desc | child | adj | sib
deriving DecidableEq

/-- selector/core.py:38-66 `TokenType`, `Token`. -/
inductive STok
  | tag (v : Str) | id (v : Str) | cls (v : Str) | universal | attrStart | attrEnd | attrOp (v : Str) | string (v : Str) | comb (c : Comb)
  | comma | colon | parenOpen | parenClose | eof
deriving DecidableEq

/-! ### Tokenizer -/

/-- selector/core.py:92-94 `_skip_whitespace`. -/
def skipWs (s : Str) : Str := s.dropWhile isHtmlSpace

/-- selector/core.py:96-98 `_is_name_start`. -/
def isNameStart (U : Uni) (c : Char) : Bool := U.isAlpha c || c = '_' || c = '-' || 127 < c.toNat

/-- selector/core.py:100-102 `_is_name_char`. -/
def isNameChar (U : Uni) (c : Char) : Bool := isNameStart U c || U.isDigit c

/-- selector/core.py:104-108 `_read_name`: the name and the rest. -/
def readName (U : Uni) (s : Str) : Str × Str := s.span (isNameChar U)

/-- selector/core.py:110-139 `_read_string`, after the opening quote. -/
def readQuoted (q : Char) : Str → Option (Str × Str)
  | [] => none
  | c :: cs =>
    if c = q then some ([], cs)
    else if c = '\\' then
      match cs with
      | [] => none
      | d :: ds => (readQuoted q ds).map fun r => (d :: r.1, r.2)
    else (readQuoted q cs).map fun r => (c :: r.1, r.2)

/-- selector/core.py:141-149 `_read_unquoted_attr_value`. -/
def readUnquoted (s : Str) : Str × Str := s.span fun c => !(isHtmlSpace c || c = ']')

/-- selector/core.py:277-285: the text up to the matching `)`, which is not consumed. -/
def readArg : Nat → Str → Str × Str
  | _, [] => ([], [])
  | d, c :: cs =>
    if c = '(' then (c :: (readArg (d + 1) cs).1, (readArg (d + 1) cs).2)
    else if c = ')' then
      if d ≤ 1 then ([], c :: cs) else (c :: (readArg (d - 1) cs).1, (readArg (d - 1) cs).2)
    else (c :: (readArg d cs).1, (readArg d cs).2)

/-- selector/core.py:233-247: the value of an attribute selector and the closing bracket. -/
def tokAttrValue (name op : Str) (s : Str) : Option (List STok × Str) :=
  let s := skipWs s
  let v := match s with
    | c :: cs => if c = '"' ∨ c = '\'' then readQuoted c cs else some (readUnquoted s)
    | [] => some ([], [])
  match v with
  | none => none
  | some (v, r) =>
    match skipWs r with
    | ']' :: r => some ([.attrStart, .tag name, .attrOp op, .string v, .attrEnd], r)
    | _ => none

/-- selector/core.py:203-231: an attribute selector, after the opening bracket. -/
def tokAttr (U : Uni) (s : Str) : Option (List STok × Str) :=
  let n := readName U (skipWs s)
  if n.1 = [] then none
  else
    match skipWs n.2 with
    | [] => none
    | c :: r =>
      if c = ']' then some ([.attrStart, .tag n.1, .attrEnd], r)
      else if c = '=' then tokAttrValue n.1 c%"=" r
      else if c ∈ c%"~|^$*" then
        match r with
        | '=' :: r => tokAttrValue n.1 [c, '='] r
        | _ => none
      else none

/-- selector/core.py:257-296: a pseudo-class, after the colon. -/
def tokPseudo (U : Uni) (s : Str) : Option (List STok × Str) :=
  let n := readName U s
  if n.1 = [] then none
  else
    match n.2 with
    | '(' :: r =>
      let a := readArg 1 (skipWs r)
      let arg := stripP U.isSpace a.1
      match a.2 with
      | ')' :: r => some ([.colon, .tag n.1, .parenOpen] ++ (if arg = [] then [] else [.string arg]) ++ [.parenClose], r)
      | _ => none
    | r => some ([.colon, .tag n.1], r)

/-- selector/core.py:179-303: one token that is not white space and not a combinator symbol. -/
def tokMain (U : Uni) (c : Char) (cs : Str) : Option (List STok × Str) :=
  if c = '*' then some ([.universal], cs)
  else if c = '#' then
    let n := readName U cs
    if n.1 = [] then none else some ([.id n.1], n.2)
  else if c = '.' then
    let n := readName U cs
    if n.1 = [] then none else some ([.cls n.1], n.2)
  else if c = '[' then tokAttr U cs
  else if c = ',' then some ([.comma], skipWs cs)
  else if c = ':' then tokPseudo U cs
  else if isNameStart U c then
    let n := readName U (c :: cs)
    some ([.tag (U.lower n.1)], n.2)
  else none

/-- The combinator symbols, selector/core.py:165. -/
def combOf (c : Char) : Option Comb :=
  if c = '>' then some .child else if c = '+' then some .adj else if c = '~' then some .sib else none

/-- selector/core.py:155-303: one round of the loop: the tokens, `pending_whitespace` and the rest. `ne` says that there are tokens already. -/
def tokStep (U : Uni) (pending ne : Bool) (c : Char) (cs : Str) : Option (List STok × Bool × Str) :=
  if isHtmlSpace c then some ([], true, skipWs cs)
  else
    match combOf c with
    | some k => some ([.comb k], false, skipWs cs)
    | none => (tokMain U c cs).map fun r => ((if pending && ne && c ≠ ',' then [.comb .desc] else []) ++ r.1, false, r.2)

/-- selector/core.py:151-306 `tokenize`; each round consumes a character, so the length of the text plus one is enough rounds. -/
def tokLoop (U : Uni) : Nat → Bool → Bool → Str → Option (List STok)
  | 0, _, _, _ => none
  | _ + 1, _, _, [] => some [.eof]
  | f + 1, pending, ne, c :: cs =>
    match tokStep U pending ne c cs with
    | none => none
    | some (ts, pending, r) => (tokLoop U f pending (ne || !ts.isEmpty) r).map (ts ++ ·)

/-- selector/core.py:151-306 `tokenize`. -/
def tokenize (U : Uni) (s : Str) : Option (List STok) := tokLoop U (s.length + 1) false false s

/-! ### Syntax trees -/

mutual
/-- selector/core.py:317-350 `SimpleSelector`. `inner` is `parsed_arg`, empty when there is none. -/
inductive Simple
  | tag (name : Str)
  | id (name : Str)
  | cls (name : Str)
  | universal
  | attr (name : Str) (op : Option (Str × Str))
  | pseudo (name : Str) (arg : Option Str) (inner : List Complex)
/-- selector/core.py:368-376 `CompoundSelector`. `key` stands for the identity of the object. -/
inductive Compound
  | mk (key : Nat) (simples : List Simple)
/-- selector/core.py:382-392 `ComplexSelector`: the last part is outermost. -/
inductive Complex
  | one (c : Compound)
  | comb (left : Complex) (op : Comb) (c : Compound)
end

/-- selector/core.py:398-406 `SelectorList`; a list of one element stands for that `ComplexSelector`. -/
abbrev Sel := List Complex

def Compound.key : Compound → Nat
  | .mk k _ => k

def Compound.simples : Compound → List Simple
  | .mk _ l => l

/-- The rightmost compound. -/
def Complex.last : Complex → Compound
  | .one c => c
  | .comb _ _ c => c

/-- `len(parts)`. -/
def Complex.length : Complex → Nat
  | .one _ => 1
  | .comb l _ _ => l.length + 1

mutual
/-- Equality of selector/core.py:412-414 `_simple_selector_signature`. -/
def sameSimple : Simple → Simple → Bool
  | .tag a, .tag b => a = b
  | .id a, .id b => a = b
  | .cls a, .cls b => a = b
  | .universal, .universal => true
  | .attr a o, .attr b p => a = b && decide (o = p)
  | .pseudo a x i, .pseudo b y j => a = b && decide (x = y) && sameSel i j
  | _, _ => false
/-- Equality of selector/core.py:417-418 `_compound_selector_signature`. -/
def sameCompound : Compound → Compound → Bool
  | .mk _ a, .mk _ b => sameSimples a b
/-- The same, for the tuple. -/
def sameSimples : List Simple → List Simple → Bool
  | [], [] => true
  | a :: as, b :: bs => sameSimple a b && sameSimples as bs
  | _, _ => false
/-- Equality of selector/core.py:421-422 `_complex_selector_signature`. -/
def sameComplex : Complex → Complex → Bool
  | .one a, .one b => sameCompound a b
  | .comb l o a, .comb m p b => sameComplex l m && decide (o = p) && sameCompound a b
  | _, _ => false
/-- Equality of selector/core.py:425-430 `_selector_signature`. -/
def sameSel : List Complex → List Complex → Bool
  | [], [] => true
  | a :: as, b :: bs => sameComplex a b && sameSel as bs
  | _, _ => false
end

/-! ### Parser -/

/-- What the parser of nested selectors is: text and next number to the selector and the next number. -/
abbrev SubParser := Str → Nat → Option (Sel × Nat)

/-- Result of looking for a simple selector. -/
inductive SimpleR
  | stop
  | bad
  | got (s : Simple) (next : Nat) (rest : List STok)

/-- selector/core.py:573-589 `_parse_attribute_selector`, after the bracket. -/
def parseAttr (U : Uni) (next : Nat) (l : List STok) : SimpleR :=
  match l with
  | .tag n :: .attrEnd :: r => .got (.attr (U.lower n) none) next r
  | .tag n :: .attrOp o :: .string v :: .attrEnd :: r => .got (.attr (U.lower n) (some (o, v))) next r
  | _ => .bad

/-- selector/core.py:600-609: the parsed argument of `:not`. -/
def parseArg (sub : SubParser) (next : Nat) (name : Str) (arg : Option Str) (r : List STok) : SimpleR :=
  match arg with
  | none => .got (.pseudo name none []) next r
  | some a =>
    if name = c%"not" ∧ a ≠ [] then
      match sub a next with
      | none => .bad
      | some (i, next) => .got (.pseudo name (some a) i) next r
    else .got (.pseudo name (some a) []) next r

/-- selector/core.py:591-611 `_parse_pseudo_selector`, after the colon. -/
def parsePseudo (U : Uni) (sub : SubParser) (next : Nat) (l : List STok) : SimpleR :=
  match l with
  | .tag n :: .parenOpen :: .string a :: .parenClose :: r => parseArg sub next (U.lower n) (some a) r
  | .tag n :: .parenOpen :: .parenClose :: r => parseArg sub next (U.lower n) none r
  | .tag _ :: .parenOpen :: _ => .bad
  | .tag n :: r => .got (.pseudo (U.lower n) none []) next r
  | _ => .bad

/-- selector/core.py:534-560: one simple selector. -/
def parseSimple (U : Uni) (sub : SubParser) (next : Nat) (l : List STok) : SimpleR :=
  match l with
  | .tag n :: r => .got (.tag n) next r
  | .universal :: r => .got .universal next r
  | .id n :: r => .got (.id n) next r
  | .cls n :: r => .got (.cls n) next r
  | .attrStart :: r => parseAttr U next r
  | .colon :: r => parsePseudo U sub next r
  | _ => .stop

/-- selector/core.py:533-567: the loop; `f` rounds suffice if there are fewer tokens. -/
def parseSimples (U : Uni) (lim : SelLimits) (sub : SubParser) : Nat → List Simple → Nat → List STok → Option (List Simple × Nat × List STok)
  | 0, _, _, _ => none
  | f + 1, acc, next, l =>
    match parseSimple U sub next l with
    | .stop => some (acc, next, l)
    | .bad => none
    | .got s next r =>
      if acc.any (sameSimple s) then parseSimples U lim sub f acc next r
      else if lim.maxCompound ≤ acc.length then none
      else parseSimples U lim sub f (acc ++ [s]) next r

/-- selector/core.py:528-571 `_parse_compound_selector`; the compound is `none` for Python's `None`. -/
def parseCompound (U : Uni) (lim : SelLimits) (sub : SubParser) (next : Nat) (l : List STok) : Option (Option Compound × Nat × List STok) :=
  match parseSimples U lim sub (l.length + 1) [] next l with
  | none => none
  | some ([], next, r) => some (none, next, r)
  | some (s :: ss, next, r) => some (some (.mk next (s :: ss)), next + 1, r)

/-- selector/core.py:517-524: the loop over combinators. -/
def parseParts (U : Uni) (lim : SelLimits) (sub : SubParser) : Nat → Complex → Nat → List STok → Option (Complex × Nat × List STok)
  | 0, _, _, _ => none
  | f + 1, left, next, l =>
    match l with
    | .comb k :: r =>
      match parseCompound U lim sub next r with
      | none => none
      | some (none, _, _) => none
      | some (some c, next, r) =>
        if lim.maxParts ≤ left.length then none else parseParts U lim sub f (.comb left k c) next r
    | _ => some (left, next, l)

/-- selector/core.py:506-526 `_parse_complex_selector`. -/
def parseComplex (U : Uni) (lim : SelLimits) (sub : SubParser) (next : Nat) (l : List STok) : Option (Option Complex × Nat × List STok) :=
  match parseCompound U lim sub next l with
  | none => none
  | some (none, next, r) => some (none, next, r)
  | some (some c, next, r) => (parseParts U lim sub (r.length + 1) (.one c) next r).map fun x => (some x.1, x.2)

/-- selector/core.py:487-500: the loop over commas, and the check that nothing is left. -/
def parseList (U : Uni) (lim : SelLimits) (sub : SubParser) : Nat → Sel → Nat → List STok → Option (Sel × Nat)
  | 0, _, _, _ => none
  | f + 1, acc, next, l =>
    match l with
    | .comma :: r =>
      match parseComplex U lim sub next r with
      | none => none
      | some (none, next, r) => parseList U lim sub f acc next r
      | some (some x, next, r) =>
        if acc.any (sameComplex x) then parseList U lim sub f acc next r
        else if lim.maxListItems ≤ acc.length then none
        else parseList U lim sub f (acc ++ [x]) next r
    | [] => some (acc, next)
    | .eof :: _ => some (acc, next)
    | _ => none

/-- selector/core.py:475-504 `parse`. -/
def parseTokens (U : Uni) (lim : SelLimits) (sub : SubParser) (next : Nat) (l : List STok) : Option (Sel × Nat) :=
  match parseComplex U lim sub next l with
  | none => none
  | some (none, _, _) => none
  | some (some x, next, r) => parseList U lim sub (r.length + 1) [x] next r

/-- selector/core.py:1346-1357 `_parse_selector`; the first argument is `max_parse_depth + 1 - parse_depth`. -/
def parseSelAt (U : Uni) (lim : SelLimits) : Nat → SubParser
  | 0, _, _ => none
  | k + 1, s, next =>
    match tokenize U s with
    | none => none
    | some l => parseTokens U lim (parseSelAt U lim k) next l

/-- selector/core.py:1320-1343 `parse_selector`. The LRU cache returns an earlier result for the same text and is not modelled. -/
def parseSelector (U : Uni) (lim : SelLimits) (s : Str) : Option Sel :=
  let s := stripP U.isSpace s
  if s = [] then none
  else if lim.maxLength < s.length then none
  else (parseSelAt U lim (lim.maxParseDepth + 1) s 0).map (·.1)

/-! ### `An+B` -/

/-- CPython: digits of `int(text)`, with single underscores between digits. `prev` says that the last character was a digit. -/
def intDigits (U : Uni) : Nat → Bool → Str → Option Nat
  | v, prev, [] => if prev then some v else none
  | v, prev, c :: cs =>
    if c = '_' then (if prev then intDigits U v false cs else none)
    else
      match U.decVal c with
      | some d => intDigits U (v * 10 + d) true cs
      | none => none

/-- CPython: `int(text)`, `none` for ValueError; white space around the number, one sign, and at most 4300 digits are allowed. -/
def pyIntSel (U : Uni) (s : Str) : Option Int :=
  let s := stripP U.isSpace s
  if 4300 < (s.filter fun c => (U.decVal c).isSome).length then none
  else
    match s with
    | '-' :: r => (intDigits U 0 false r).map fun (v : Nat) => -(v : Int)
    | '+' :: r => (intDigits U 0 false r).map fun (v : Nat) => (v : Int)
    | r => (intDigits U 0 false r).map fun (v : Nat) => (v : Int)

/-- selector/core.py:1254-1262: the coefficient. -/
def nthCoeff (U : Uni) (a : Str) : Option Int :=
  if a = [] ∨ a = c%"+" then some 1 else if a = c%"-" then some (-1) else pyIntSel U a

/-- selector/core.py:1230-1276 `_parse_nth_expression_uncached`. -/
def parseNth (U : Uni) (e : Option Str) : Option (Int × Int) :=
  match e with
  | none => none
  | some [] => none
  | some e =>
    let e := U.lower (stripP U.isSpace e)
    if e = c%"odd" then some (2, 1)
    else if e = c%"even" then some (2, 0)
    else
      let e := e.filter (· ≠ ' ')
      if 'n' ∈ e then
        let parts := splitC 'n' e
        match nthCoeff U (parts.headD []) with
        | none => none
        | some a =>
          let b := parts.tail.headD []
          if b = [] then some (a, 0) else (pyIntSel U b).map fun b => (a, b)
      else (pyIntSel U e).map fun b => (0, b)

end JH
