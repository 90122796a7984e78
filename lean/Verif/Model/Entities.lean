import Verif.Model.Py

/-! Model of /repo/src/justhtml/core/entities.py (numeric and named character references). -/
namespace JH

/-- The entity tables (core/entities.py:20-176): `NAMED_ENTITIES`, `LEGACY_ENTITIES`,
`_MAX_NAMED_ENTITY_LENGTH`, `_MAX_LEGACY_ENTITY_LENGTH`. Parameter of the model: theorems hold for every table
that contains the names the serializer writes. -/
structure EntTables where
  named : Str → Option Str
  legacy : Str → Bool
  maxNamed : Nat
  maxLegacy : Nat
  named_amp : named "amp".toList = some ['&']
  named_lt : named "lt".toList = some ['<']
  named_gt : named "gt".toList = some ['>']
  named_quot : named "quot".toList = some ['"']
  named_nil : named [] = none
  legacy_nil : legacy [] = false
  maxNamed_ge : 4 ≤ maxNamed

/-- core/entities.py:147-176 `NUMERIC_REPLACEMENTS`. -/
def numericReplacements : List (Nat × Nat) :=
  [(0x00, 0xfffd), (0x80, 0x20ac), (0x82, 0x201a), (0x83, 0x0192), (0x84, 0x201e), (0x85, 0x2026),
   (0x86, 0x2020), (0x87, 0x2021), (0x88, 0x02c6), (0x89, 0x2030), (0x8A, 0x0160), (0x8B, 0x2039),
   (0x8C, 0x0152), (0x8E, 0x017d), (0x91, 0x2018), (0x92, 0x2019), (0x93, 0x201c), (0x94, 0x201d),
   (0x95, 0x2022), (0x96, 0x2013), (0x97, 0x2014), (0x98, 0x02dc), (0x99, 0x2122), (0x9A, 0x0161),
   (0x9B, 0x203a), (0x9C, 0x0153), (0x9E, 0x017e), (0x9F, 0x0178)]

/-- core/entities.py:283 membership in "0123456789abcdefABCDEF". -/
def isHexC (c : Char) : Bool :=
  isDigitC c || ('a'.toNat ≤ c.toNat && c.toNat ≤ 'f'.toNat) || ('A'.toNat ≤ c.toNat && c.toNat ≤ 'F'.toNat)

/-- Value of a hexadecimal digit as used by `int(digits, 16)`. -/
def hexVal (c : Char) : Nat :=
  if isDigitC c then c.toNat - 48 else if 'a'.toNat ≤ c.toNat then c.toNat - 87 else c.toNat - 55

/-- `int(digits, base)` on a string of digits (core/entities.py:220); `none` is ValueError. -/
def pyInt (U : Uni) (hex : Bool) : Nat → Str → Option Nat
  | acc, [] => some acc
  | acc, c :: cs =>
    if hex then pyInt U hex (acc * 16 + hexVal c) cs
    else match U.decVal c with
      | some d => pyInt U hex (acc * 10 + d) cs
      | none => none

/-- core/entities.py:191-233 `decode_numeric_entity` (error reporting omitted).
`none` models the uncaught ValueError of `int()`. -/
def decodeNumeric (U : Uni) (hex : Bool) (text : Str) : Option Char :=
  let stripped := lstripP (· = '0') text
  let digits := if stripped.isEmpty then ['0'] else stripped
  if digits.length > 16 then some (Char.ofNat 0xfffd)
  else
    match pyInt U hex 0 digits with
    | none => none
    | some cp =>
      if cp > 0x10FFFF then some (Char.ofNat 0xfffd)
      else if 0xD800 ≤ cp ∧ cp ≤ 0xDFFF then some (Char.ofNat 0xfffd)
      else match numericReplacements.lookup cp with
        | some r => some (Char.ofNat r)
        | none => some (Char.ofNat cp)

/-- core/entities.py:291-293 `text[j] in "xX"` after "&#". -/
def hexMark : Str → Bool
  | x :: _ => x = 'x' || x = 'X'
  | [] => false

/-- core/entities.py:280-302: digits, optional ";" and the decoded character. `pre` is the text from "&" up to the
digits. Result: text appended to the output and the remaining input; `none` = ValueError. -/
def numericTail (U : Uni) (hex : Bool) (pre body : Str) : Option (Str × Str) :=
  let isD := if hex then isHexC else U.isDigit
  let digs := body.takeWhile isD
  let after := body.dropWhile isD
  let semi := after.head? = some ';'
  let rest := if semi then after.tail else after
  if digs.isEmpty then some (pre ++ (if semi then [';'] else []), rest)
  else match decodeNumeric U hex digs with
    | some c => some ([c], rest)
    | none => none

/-- core/entities.py:271-302: a numeric reference; `ds` is the text after "&#". -/
def numericRef (U : Uni) (ds : Str) : Option (Str × Str) :=
  if hexMark ds then numericTail U true ('&' :: '#' :: ds.take 1) (ds.drop 1)
  else numericTail U false ['&', '#'] ds

/-- core/entities.py:329-334 and 365-370: longest legacy prefix of length at most `k`. -/
def bestLegacy (T : EntTables) (run : Str) : Nat → Option (Nat × Str)
  | 0 => none
  | k + 1 =>
    let prefix' := run.take (k + 1)
    if T.legacy prefix' then
      match T.named prefix' with
      | some v => if v.isEmpty then none else some (k + 1, v)
      | none => bestLegacy T run k
    else bestLegacy T run k

/-- core/entities.py:304-396: a named reference; `cs` is the text after "&". -/
def namedRef (U : Uni) (T : EntTables) (attr : Bool) (cs : Str) : Str × Str :=
  let isN := fun c => U.isAlpha c || U.isDigit c
  let run := cs.takeWhile isN
  let after := cs.dropWhile isN
  let semi : Bool := after.head? = some ';'
  let name := if run.length ≤ T.maxNamed then run else []
  let klim := min run.length T.maxLegacy
  if run.isEmpty then (['&'], cs)
  else
    match (if semi then T.named name else none) with
    | some v => (v, after.tail)
    | none =>
      match (if semi && !attr then bestLegacy T run klim else none) with
      | some (k, v) => (v, cs.drop k)
      | none =>
        if T.legacy name && (T.named name).isSome then
          let blocked := match after.head? with
            | some c => attr && (U.isAlnum c || c = '=')
            | none => false
          if blocked then (['&'], cs) else ((T.named name).getD [], after)
        else
          match bestLegacy T run klim with
          | some (k, v) => if attr then (['&'], cs) else (v, cs.drop k)
          | none => if semi then ('&' :: run ++ [';'], after.tail) else (['&'], cs)

/-- core/entities.py:268-396: one reference after "&". -/
def refAt (U : Uni) (T : EntTables) (attr : Bool) (cs : Str) : Option (Str × Str) :=
  match cs with
  | '#' :: ds => numericRef U ds
  | _ => some (namedRef U T attr cs)

/-- core/entities.py:236-398 main loop. The loop copies text up to the next "&" and then handles one
reference; here character by character, `fuel` bounds the iterations (`decode` supplies enough). -/
def decodeF (U : Uni) (T : EntTables) (attr : Bool) : Nat → Str → Option Str
  | 0, _ => some []
  | _ + 1, [] => some []
  | n + 1, c :: cs =>
    if c = '&' then
      match refAt U T attr cs with
      | none => none
      | some (o, rest) => (decodeF U T attr n rest).map (o ++ ·)
    else (decodeF U T attr n cs).map (c :: ·)

/-- core/entities.py:243-398 `decode_entities_in_text(text, in_attribute)`; `none` = ValueError. -/
def decodeEntities (U : Uni) (T : EntTables) (attr : Bool) (s : Str) : Option Str :=
  decodeF U T attr (s.length + 1) s

end JH
