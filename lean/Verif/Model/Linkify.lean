import Verif.Model.Py
import Verif.Model.Tree

/-! Model of the link finder (transforms/linkify_core.py) and of the Linkify transform (transforms/linkify.py and the walker
of transforms/runtime.py). The regular expression is interpreted by a small backtracking matcher. -/
namespace JH

/-- What `str.lower()` makes of one character: ASCII letters as expected; another character becomes one non-ASCII character, or
(U+0130) `i` and U+0307, or (U+212A) `k`. -/
def LowerPiece (c : Char) (p : Str) : Prop :=
  if isAscii c then p = [lowerC c] else p = ['i', '\u0307'] ∨ p = ['k'] ∨ ∃ d, p = [d] ∧ isAscii d = false

/-- The library functions the link finder calls: the Unicode database and the `idna` codec. -/
structure LinkEnv where
  U : Uni
  /-- transforms/linkify_core.py:147-152 `_punycode_host`: `host.encode("idna").decode("ascii")`, or `host` on `UnicodeError` -/
  idna : Str → Str
  /-- CPython: `str.lower()` works character by character (the context rule for the Greek sigma chooses between two non-ASCII characters). -/
  lower_pieces : ∀ s, ∃ ps : List Str, List.Forall₂ LowerPiece s ps ∧ U.lower s = ps.flatten
  /-- encodings/idna.py: an ASCII host is encoded as itself, or refused (then `_punycode_host` returns it unchanged) -/
  idna_ascii : ∀ s, s.all isAscii = true → idna s = s
  /-- Unicode: the characters `int` accepts (`isdecimal`) are digits (`isdigit`) -/
  dec_digit : ∀ c, (U.decVal c).isSome = true → U.isDigit c = true

/-- A concrete environment: ASCII, and a codec that refuses everything else. -/
def LinkEnv.sample : LinkEnv where
  U := Uni.sample
  idna := id
  lower_pieces := fun s => ⟨s.map fun c => [lowerC c], by
    constructor
    · induction s with
      | nil => exact .nil
      | cons c s ih =>
        refine .cons ?_ ih
        rw [LowerPiece]
        by_cases h : isAscii c = true
        · rw [if_pos h]
        · rw [if_neg h]
          refine .inr (.inr ⟨_, rfl, ?_⟩)
          have : isUpperC c = false := by
            simp only [isAscii, decide_eq_true_eq, Nat.not_lt] at h
            simp only [isUpperC, Bool.and_eq_false_iff, decide_eq_false_iff_not]
            right
            have : 'Z'.toNat = 90 := rfl
            omega
          rw [lowerC, this]
          simpa using h
    · induction s with
      | nil => rfl
      | cons c s ih =>
        show lowerC c :: lowerA s = _
        have : lowerA s = (s.map fun c => [lowerC c]).flatten := ih
        rw [this]; rfl⟩
  idna_ascii := fun _ _ => rfl
  dec_digit := fun c h => by
    by_cases hd : isDigitC c = true
    · simp [Uni.sample, hd]
    · simp [Uni.sample, hd] at h

/-! ### Regular expressions

`re` matches by backtracking: the alternatives are tried in order and repetitions are greedy. `ends r s` lists, in the order in which
the engine tries them, the rests of `s` after a match of `r` at its start; the engine's match is the first. -/

inductive Re where
  | chr (p : Char → Bool)
  | seq (a b : Re)
  | alt (a b : Re)
  | star (a : Re)
  | upTo (n : Nat) (a : Re)

/-- Greedy repetition, at most `n` times, of a matcher; an empty iteration is not repeated. -/
def repEnds (f : Str → List Str) : Nat → Str → List Str
  | 0, s => [s]
  | n + 1, s => ((f s).filter (fun t => t.length < s.length)).flatMap (repEnds f n) ++ [s]

def Re.ends : Re → Str → List Str
  | .chr _, [] => []
  | .chr p, c :: t => if p c then [t] else []
  | .seq a b, s => (a.ends s).flatMap b.ends
  | .alt a b, s => a.ends s ++ b.ends s
  | .star a, s => repEnds a.ends s.length s
  | .upTo n a, s => repEnds a.ends n s

/-- `r+`. -/
def Re.plus (r : Re) : Re := .seq r (.star r)

/-- `r?`. -/
def Re.opt (r : Re) : Re := .upTo 1 r

/-- `r` repeated `n + 1` times. -/
def Re.times : Nat → Re → Re
  | 0, r => r
  | n + 1, r => .seq r (Re.times n r)

/-- Under `(?i)` a lower-case letter of the pattern matches its capital, `s` also U+017F, `i` also U+0130 and U+0131. -/
def ciChar (l c : Char) : Bool :=
  lowerC c = l || (l = 's' && c = '\u017f') || (l = 'i' && (c = '\u0130' || c = '\u0131'))

/-- A literal (the first character and the rest). -/
def Re.lit : Char → Str → Re
  | l, [] => .chr (ciChar l)
  | l, m :: t => .seq (.chr (ciChar l)) (Re.lit m t)

/-- `[0-9A-Za-z]` under `(?i)`: ASCII letters and digits, and U+0130, U+0131, U+017F, U+212A. -/
def ciAlnum (c : Char) : Bool :=
  isAsciiAlpha c || isDigitC c || c = '\u0130' || c = '\u0131' || c = '\u017f' || c = '\u212a'

/-- transforms/linkify_core.py:66 the left boundary `[^0-9A-Za-z_]`. -/
def boundaryC (c : Char) : Bool := !(ciAlnum c || c = '_')

/-- `[^\s<>\uFF5C]`. -/
def urlC (U : Uni) (c : Char) : Bool := !(U.isSpace c || c = '<' || c = '>' || c = '\uff5c')

/-- transforms/linkify_core.py:59 `[0-9A-Za-z\w\u2600-\u27bf]`. -/
def labelC (U : Uni) (c : Char) : Bool := ciAlnum c || U.isAlnum c || c = '_' || (0x2600 ≤ c.toNat && c.toNat ≤ 0x27bf)

/-- transforms/linkify_core.py:58-61 `_LABEL_RE`. -/
def labelRe (U : Uni) : Re :=
  .seq (.chr (labelC U)) (.opt (.seq (.upTo 61 (.chr fun c => labelC U c || c = '-')) (.chr (labelC U))))

/-- `(?:LABEL\.)+LABEL`. -/
def domainRe (U : Uni) : Re := .seq (.plus (.seq (labelRe U) (.chr (· = '.')))) (labelRe U)

/-- transforms/linkify_core.py:78 the characters of an e-mail local part. -/
def localC (c : Char) : Bool := ciAlnum c || c%".!#$%&'*+/=?^_`{|}~-\"".contains c

/-- `(?:/[^\s<>\uFF5C]*)?`. -/
def pathRe (U : Uni) : Re := .opt (.seq (.chr (· = '/')) (.star (.chr (urlC U))))

/-- `\d` (decimal digits of any script). -/
def decC (U : Uni) (c : Char) : Bool := (U.decVal c).isSome

/-- `\d{1,3}`. -/
def d13 (U : Uni) : Re := .seq (.chr (decC U)) (.upTo 2 (.chr (decC U)))

/-- transforms/linkify_core.py:64-85 `_CANDIDATE_RE`, its second group. -/
def candRe (U : Uni) : Re :=
  let tail := Re.plus (.chr (urlC U))
  .alt (.seq (.alt (.seq (Re.lit 'h' c%"ttp") (.opt (.chr (ciChar 's')))) (Re.lit 'f' c%"tp")) (.seq (Re.lit ':' c%"//") tail))
  (.alt (.seq (Re.lit 'm' c%"ailto:") tail)
  (.alt (.seq (Re.lit '/' c%"/") tail)
  (.alt (.seq (Re.lit 'w' c%"ww.") tail)
  (.alt (.seq (.chr ciAlnum) (.seq (.upTo 63 (.chr localC)) (.seq (.chr (· = '@')) (domainRe U))))
  (.alt (.seq (Re.times 2 (.seq (d13 U) (.chr (· = '.')))) (.seq (d13 U) (pathRe U)))
  (.seq (domainRe U) (pathRe U)))))))

/-- `_CANDIDATE_RE.finditer("\n" + text)`: the non-overlapping matches from left to right, each as the offset of its second group
in `text` and the group itself. `pos` is the offset in `text` of the character after `b`. -/
def candsGo (U : Uni) : Nat → Nat → Str → List (Nat × Str)
  | 0, _, _ => []
  | _ + 1, _, [] => []
  | n + 1, pos, b :: t =>
    match (if boundaryC b then ((candRe U).ends t).head? else none) with
    | some r => (pos, t.take (t.length - r.length)) :: candsGo U n (pos + 1 + (t.length - r.length)) r
    | none => candsGo U n (pos + 1) t

/-- All candidates of a text. -/
def cands (U : Uni) (text : Str) : List (Nat × Str) := candsGo U (text.length + 1) 0 ('\n' :: text)

/-! ### Validation -/

/-- transforms/linkify_core.py:28-50 `DEFAULT_TLDS`. -/
def defaultTlds : List Str :=
  [c%"biz", c%"com", c%"edu", c%"gov", c%"net", c%"org", c%"pro", c%"web", c%"xxx", c%"aero", c%"asia", c%"coop", c%"info",
   c%"museum", c%"name", c%"shop", c%"рф"]

/-- transforms/linkify_core.py:90-93 `_CC_TLD_RE`, as the table of second letters for each first letter. -/
def ccTable : List (Char × Str) :=
  [('a', c%"cdefgilmnoqrstuwxz"), ('b', c%"abdefghijmnorstvwyz"), ('c', c%"acdfghiklmnoruvwxyz"), ('d', c%"ejkmoz"),
   ('e', c%"cegrstu"), ('f', c%"ijkmor"), ('g', c%"abdefghilmnpqrstuwy"), ('h', c%"kmnrtu"), ('i', c%"delmnoqrst"),
   ('j', c%"emop"), ('k', c%"eghimnprwyz"), ('l', c%"abcikrstuvy"), ('m', c%"acdeghklmnopqrstuvwxyz"), ('n', c%"acefgilopruz"),
   ('o', c%"m"), ('p', c%"aefghklmnrstwy"), ('q', c%"a"), ('r', c%"eosuw"), ('s', c%"abcdeghijklmnortuvxyz"),
   ('t', c%"cdfghjklmnortvwz"), ('u', c%"agksyz"), ('v', c%"aceginu"), ('w', c%"fs"), ('y', c%"et"), ('z', c%"amw")]

/-- `_CC_TLD_RE.match(t)` for a `t` of two characters. -/
def ccMatch : Str → Bool
  | [a, b] => ccTable.any fun p => ciChar p.1 a && p.2.any fun l => ciChar l b
  | _ => false

/-- transforms/linkify_core.py:122-125 `LinkifyConfig`. -/
structure LinkCfg where
  fuzzyIp : Bool
  extraTlds : List Str

/-- transforms/linkify_core.py:96-106 `_is_valid_tld`. -/
def validTld (U : Uni) (extra : List Str) (tld : Str) : Bool :=
  let t := U.lower tld
  if t.isEmpty then false
  else if t.length = 2 && ccMatch t then true
  else if startsWith c%"xn--" t then true
  else defaultTlds.contains t || extra.contains t

/-- `s.rsplit(sep, 1)` for a one-character separator that occurs: the text before and after its last occurrence. -/
def rsplit1 (sep : Char) (s : Str) : Str × Str :=
  let after := (s.reverse.takeWhile (· ≠ sep)).reverse
  (s.take (s.length - after.length - 1), after)

/-- transforms/linkify_core.py:109-119 `_split_domain_for_tld`; only the TLD is used by the callers. -/
def tldOf (U : Uni) (host : Str) : Option Str :=
  let h := stripP (· = '.') (stripP U.isSpace host)
  if h.isEmpty then none
  else if U.lower h = c%"localhost" then some []
  else if !h.contains '.' then none
  else some (rsplit1 '.' h).2

/-- `int(p)` for a `p` all of whose characters satisfy `isdigit`; `none` is `ValueError`. -/
def intOf (U : Uni) (p : Str) : Option Nat :=
  p.foldl (fun n c => n.bind fun k => (U.decVal c).map fun d => k * 10 + d) (some 0)

/-- transforms/linkify_core.py:136-143: the loop of `_is_valid_ipv4`; an error is the `ValueError` of `int`. -/
def ipv4Parts (U : Uni) : List Str → Except Unit Bool
  | [] => .ok true
  | p :: ps =>
    if p.isEmpty || p.length > 3 then .ok false
    else if !p.all U.isDigit then .ok false
    else
      match intOf U p with
      | none => .error ()
      | some v => if v > 255 then .ok false else ipv4Parts U ps

/-- transforms/linkify_core.py:132-144 `_is_valid_ipv4`. -/
def validIpv4 (U : Uni) (host : Str) : Except Unit Bool :=
  let parts := splitC '.' host
  if parts.length ≠ 4 then .ok false else ipv4Parts U parts

/-- `host.replace(".", "").isdigit()`. -/
def dottedDigits (U : Uni) (host : Str) : Bool :=
  let h := host.filter (· ≠ '.')
  !h.isEmpty && h.all U.isDigit

/-- transforms/linkify_core.py:155-161 `_split_host_and_rest`. -/
def splitHost (raw : Str) : Str × Str :=
  let stop := fun c : Char => c = '/' || c = '?' || c = '#'
  (raw.takeWhile fun c => !stop c, raw.dropWhile fun c => !stop c)

/-- transforms/linkify_core.py:164-177 `_strip_wrapping`: the text and the number of characters removed at its start. -/
def stripWrapping (raw : Str) : Str × Nat :=
  if (raw.head?.any fun c => c%"<\"'([{".contains c) && (raw.getLast?.any fun c => c%">\"')]}".contains c) then
    ((raw.drop 1).dropLast, 1)
  else (raw, 0)

/-- transforms/linkify_core.py:187-189: the number of characters left without the trailing punctuation (`r` is the reversed text). -/
def dropPunct (r : Str) : Str := r.dropWhile fun c => c%".,;:!?".contains c

/-- Number of `q` in a text (`counts[q]`). -/
def countC (q : Char) (s : Str) : Nat := s.count q

/-- transforms/linkify_core.py:211-217: trailing quotes are removed while their number is odd. `k q` is what `counts[q]` was decreased by. The
text is reversed; `all` is the text the counts were taken from. -/
def dropQuotes (all : Str) (dq sq : Nat) : Str → Str
  | '"' :: r => if (countC '"' all - dq) % 2 = 1 then dropQuotes all (dq + 1) sq r else '"' :: r
  | '\'' :: r => if (countC '\'' all - sq) % 2 = 1 then dropQuotes all dq (sq + 1) r else '\'' :: r
  | r => r

/-- transforms/linkify_core.py:221 `pairs`. -/
def openOf : Char → Option Char
  | ')' => some '('
  | ']' => some '['
  | '}' => some '{'
  | '>' => some '<'
  | _ => none

/-- transforms/linkify_core.py:222-229: trailing closing brackets are removed while there are more of them than opening ones. `gone` are the
brackets removed so far. -/
def dropClosers (all : Str) (gone : Str) : Str → Str
  | [] => []
  | c :: r =>
    match openOf c with
    | none => c :: r
    | some o => if countC c all - countC c gone > countC o all then dropClosers all (c :: gone) r else c :: r

/-- transforms/linkify_core.py:180-231 `_trim_trailing`. -/
def trimTrailing (c : Str) : Str :=
  let r := dropPunct c.reverse
  (dropClosers r [] (dropQuotes r 0 0 r)).reverse

/-- `lower.startswith(("http://", "https://", "ftp://"))`. -/
def hasScheme3 (lower : Str) : Bool := startsWith c%"http://" lower || startsWith c%"https://" lower || startsWith c%"ftp://" lower

/-- transforms/linkify_core.py:234-247 `_href_for`: the address, and whether it is an e-mail address. -/
def hrefFor (U : Uni) (text : Str) : Str × Bool :=
  let lower := U.lower text
  if startsWith c%"mailto:" lower then (text, true)
  else if text.contains '@' && !(hasScheme3 lower || startsWith c%"//" lower || startsWith c%"www." lower) then
    (c%"mailto:" ++ text, true)
  else if hasScheme3 lower || startsWith c%"//" lower then (text, false)
  else (c%"http://" ++ text, false)

/-- transforms/linkify_core.py:256-274: the length of the prefix before the authority; `none` for `mailto:`. -/
def hrefPrefix (lower : Str) : Option Nat :=
  if startsWith c%"mailto:" lower then none
  else if startsWith c%"http://" lower then some 7
  else if startsWith c%"https://" lower then some 8
  else if startsWith c%"ftp://" lower then some 6
  else if startsWith c%"//" lower then some 2
  else some 0

/-- transforms/linkify_core.py:278-299: the authority with its host encoded; `none` for a bracketed host. -/
def punycodeHostport (E : LinkEnv) (hostport : Str) : Option Str :=
  let ui := if hostport.contains '@' then (rsplit1 '@' hostport).1 else []
  let hp2 := if hostport.contains '@' then (rsplit1 '@' hostport).2 else hostport
  if startsWith c%"[" hp2 then none
  else
    let p := partitionC ':' hp2
    let rebuilt := if p.2.2.isEmpty then E.idna p.1 else E.idna p.1 ++ ':' :: p.2.2
    some (if ui.isEmpty then rebuilt else ui ++ '@' :: rebuilt)

/-- transforms/linkify_core.py:250-299 `_punycode_href`. -/
def punycodeHref (E : LinkEnv) (href : Str) : Str :=
  match hrefPrefix (E.U.lower href) with
  | none => href
  | some n =>
    let ht := splitHost (href.drop n)
    match punycodeHostport E ht.1 with
    | none => href
    | some a => href.take n ++ a ++ ht.2

/-- transforms/linkify_core.py:19-25 `LinkMatch`. -/
structure LinkMatch where
  start : Nat
  stop : Nat
  text : Str
  href : Str
  email : Bool
deriving DecidableEq

/-- transforms/linkify_core.py:326-343: from a stripped candidate and its offset to the text of the link and its offset. -/
def trimCand (U : Uni) (text : Str) (start : Nat) (stripped : Str) : Option (Nat × Str) :=
  let c1 := trimTrailing stripped
  if c1.isEmpty then none
  else
    let c2 :=
      if hasScheme3 (U.lower c1) then
        match find? c%")[" c1 with
        | some k => trimTrailing (c1.take k)
        | none => c1
      else c1
    if c2.isEmpty then none
    else if (c2.head?.any fun c => c = '"' || c = '\'') && text[start]? = c2.head? then
      (if (c2.drop 1).isEmpty then none else some (start + 1, c2.drop 1))
    else some (start, c2)

/-- `text[k] in chars` for the character before `start`, when there is one. -/
def prevIn (text : Str) (start : Nat) (chars : Str) : Bool :=
  start > 0 && (text[start - 1]?).any fun c => chars.contains c

/-- transforms/linkify_core.py:352-356: a bare domain right after `://` or one of `/:@` is not a link. -/
def afterBroken (text : Str) (start : Nat) (lower cand : Str) : Bool :=
  !(hasScheme3 lower || startsWith c%"mailto:" lower || startsWith c%"//" lower || startsWith c%"www." lower) &&
    !cand.contains '@' && ((start ≥ 3 && (text.drop (start - 3)).take 3 = c%"://") || prevIn text start c%"/:@")

/-- transforms/linkify_core.py:359-368: is the candidate an IPv4 address refused by `fuzzy_ip=False`? -/
def refusedIp (U : Uni) (cfg : LinkCfg) (lower cand : Str) : Except Unit Bool :=
  if (cand.head?.any U.isDigit) && cand.contains '.' && !(hasScheme3 lower || startsWith c%"//" lower) then
    let host := (splitHost cand).1
    if dottedDigits U host then
      match validIpv4 U host with
      | .error e => .error e
      | .ok b => .ok (b && !cfg.fuzzyIp)
    else .ok false
  else .ok false

/-- transforms/linkify_core.py:371-390: is a `//` candidate refused? -/
def refusedProtoRel (U : Uni) (text : Str) (start : Nat) (lower cand : Str) : Bool :=
  if startsWith c%"//" lower then
    if prevIn text start c%":/" then true
    else
      let hostport := (splitHost (cand.drop 2)).1
      if hostport.isEmpty || startsWith c%"[" hostport then true
      else
        let h1 := if hostport.contains '@' then (rsplit1 '@' hostport).2 else hostport
        let h2 := if h1.contains ':' then (partitionC ':' h1).1 else h1
        (U.lower h2 ≠ c%"localhost" && !h2.contains '.') || h2.contains '_'
  else false

/-- transforms/linkify_core.py:406-411, 424-429: no TLD, or an unknown one. -/
def badTld (U : Uni) (cfg : LinkCfg) (host : Str) : Bool :=
  match tldOf U host with
  | none => true
  | some t => !validTld U cfg.extraTlds t

/-- transforms/linkify_core.py:393-411: is a bare domain refused? -/
def refusedDomain (U : Uni) (cfg : LinkCfg) (lower cand : Str) : Except Unit Bool :=
  if !(hasScheme3 lower || startsWith c%"mailto:" lower) && !startsWith c%"//" lower && !startsWith c%"www." lower &&
      !cand.contains '@' then
    let host := (splitHost cand).1
    if host.contains '_' then .ok true
    else if host.contains '.' && dottedDigits U host then
      match validIpv4 U host with
      | .error e => .error e
      | .ok b => .ok (!b && badTld U cfg host)
    else .ok (badTld U cfg host)
  else .ok false

/-- transforms/linkify_core.py:413-429: is an e-mail address refused? -/
def refusedEmail (U : Uni) (cfg : LinkCfg) (lower cand : Str) : Bool :=
  if cand.contains '@' && !(hasScheme3 lower || startsWith c%"//" lower) && !startsWith c%"mailto:" lower then
    let host := (splitHost (rsplit1 '@' cand).2).1
    host.contains '_' || badTld U cfg host
  else false

/-- transforms/linkify_core.py:442-445: a port of more than five characters, above 65535, or with something else than ASCII digits. -/
def badPort (port : Str) : Bool :=
  !port.isEmpty && (!port.all isAscii || !port.all isDigitC || port.length > 5 ||
    (port.length = 5 && (c%"65535").map Char.toNat < port.map Char.toNat))

/-- `cand.split("://", 1)[1]`, for a text that contains `://`. -/
def afterScheme (cand : Str) : Str :=
  match find? c%"://" cand with
  | some k => cand.drop (k + 3)
  | none => []

/-- transforms/linkify_core.py:432-451: is a URL with a scheme refused? -/
def refusedUrl (U : Uni) (lower cand : Str) : Except Unit Bool :=
  if hasScheme3 lower then
    let hp0 := (splitHost (afterScheme cand)).1
    if hp0.isEmpty then .ok true
    else
      let hp := if hp0.contains '@' then (rsplit1 '@' hp0).2 else hp0
      let withPort := hp.contains ':' && !startsWith c%"[" hp
      let host := if withPort then (partitionC ':' hp).1 else hp
      if withPort && badPort (partitionC ':' hp).2.2 then .ok true
      else if host.isEmpty || startsWith c%"-" host || startsWith c%"." host || endsWith c%"-" host || endsWith c%"." host ||
          isIn c%".." host then .ok true
      else if host.contains '_' then .ok true
      else if host.contains '.' && dottedDigits U host then
        match validIpv4 U host with
        | .error e => .error e
        | .ok b => .ok (!b)
      else .ok false
  else .ok false

/-- transforms/linkify_core.py:348-451: all validations in order; `ok true` is `continue`. -/
def refused (U : Uni) (cfg : LinkCfg) (text : Str) (start : Nat) (cand : Str) : Except Unit Bool :=
  let lower := U.lower cand
  if afterBroken text start lower cand then .ok true
  else
    match refusedIp U cfg lower cand with
    | .error e => .error e
    | .ok true => .ok true
    | .ok false =>
      if refusedProtoRel U text start lower cand then .ok true
      else
        match refusedDomain U cfg lower cand with
        | .error e => .error e
        | .ok true => .ok true
        | .ok false =>
          if refusedEmail U cfg lower cand then .ok true else refusedUrl U lower cand

/-- transforms/linkify_core.py:315-456: one candidate. -/
def linkOf (E : LinkEnv) (cfg : LinkCfg) (text : Str) (c : Nat × Str) : Except Unit (Option LinkMatch) :=
  let sw := stripWrapping c.2
  match trimCand E.U text (c.1 + sw.2) sw.1 with
  | none => .ok none
  | some (start, cand) =>
    match refused E.U cfg text start cand with
    | .error e => .error e
    | .ok true => .ok none
    | .ok false =>
      let h := hrefFor E.U cand
      .ok (some ⟨start, start + cand.length, cand, punycodeHref E h.1, h.2⟩)

/-- transforms/linkify_core.py:313-456: the loop over the candidates. -/
def linksOf (E : LinkEnv) (cfg : LinkCfg) (text : Str) : List (Nat × Str) → Except Unit (List LinkMatch)
  | [] => .ok []
  | c :: cs =>
    match linkOf E cfg text c with
    | .error e => .error e
    | .ok o =>
      match linksOf E cfg text cs with
      | .error e => .error e
      | .ok ms => .ok (o.toList ++ ms)

/-- transforms/linkify_core.py:461: the sort key comparison, `(start, -(end - start))`. -/
def linkLe (a b : LinkMatch) : Bool :=
  a.start < b.start || (a.start = b.start && b.stop - b.start ≤ a.stop - a.start)

/-- One step of a stable insertion sort. -/
def insertLink (m : LinkMatch) : List LinkMatch → List LinkMatch
  | [] => [m]
  | x :: xs => if linkLe m x then m :: x :: xs else x :: insertLink m xs

/-- `out.sort(key=...)` (stable). -/
def sortLinks : List LinkMatch → List LinkMatch
  | [] => []
  | m :: ms => insertLink m (sortLinks ms)

/-- transforms/linkify_core.py:462-469: keep the matches that begin at or after the end of the last one kept. -/
def dropOverlaps : Nat → List LinkMatch → List LinkMatch
  | _, [] => []
  | last, m :: ms => if m.start < last then dropOverlaps last ms else m :: dropOverlaps m.stop ms

/-- transforms/linkify_core.py:306-469 `find_links_with_config`. An error is the `ValueError` of `int`. (`last_end` begins at -1; no offset is
below 0.) -/
def findLinks (E : LinkEnv) (cfg : LinkCfg) (text : Str) : Except Unit (List LinkMatch) :=
  match linksOf E cfg text (cands E.U text) with
  | .error e => .error e
  | .ok out => .ok (dropOverlaps 0 (sortLinks out))

/-! ### The transform -/

/-- transforms/linkify.py:62 `parent.namespace or "html"`. -/
def linkNs : Option Str → Str
  | none => c%"html"
  | some ns => if ns.isEmpty then c%"html" else ns

/-- transforms/linkify.py:72-73: the `<a href>` element. -/
def linkNode (ns : Str) (m : LinkMatch) : Node := .elem c%"a" (some ns) [(c%"href", some m.href)] [.text m.text] false []

/-- transforms/linkify.py:63-83: the nodes that replace a text node. -/
def linkPieces (ns : Str) (text : Str) : Nat → List LinkMatch → List Node
  | cursor, [] => if cursor < text.length then [.text (text.drop cursor)] else []
  | cursor, m :: ms =>
    (if m.start > cursor then [Node.text ((text.drop cursor).take (m.start - cursor))] else []) ++
      linkNode ns m :: linkPieces ns text m.stop ms

/-- The outcome of a walk: the new children, an exception, or no outcome within the given number of steps. -/
inductive Walked where
  | done (kids : List Node)
  | raised
  | running

/-- transforms/runtime.py:368-402, 676-690, 877-898 with one Linkify transform: the walk over a child list. `skip` is `skip_linkify`,
`linked` says that the nodes were created by the transform and start after it (`_mark_start`); the text inside a new `<a>` is not
marked. A replaced text node is looked at again at the same index. One unit of fuel is one visited node. -/
def linkWalk (E : LinkEnv) (cfg : LinkCfg) (skipTags : List Str) (ns : Option Str) : Nat → Bool → List (Bool × Node) → Walked
  | 0, _, _ => .running
  | _ + 1, _, [] => .done []
  | fuel + 1, skip, (marked, .text d) :: rest =>
    let keep := fun _ : Unit =>
      match linkWalk E cfg skipTags ns fuel skip rest with
      | .done ks => Walked.done (.text d :: ks)
      | w => w
    if marked || skip || d.isEmpty then keep ()
    else
      match findLinks E cfg d with
      | .error _ => .raised
      | .ok [] => keep ()
      | .ok (m :: ms) =>
        linkWalk E cfg skipTags ns fuel skip ((linkPieces (linkNs ns) d 0 (m :: ms)).map (fun n => (true, n)) ++ rest)
  | fuel + 1, skip, (_, .elem nm ns' attrs kids tpl content) :: rest =>
    let skip' := skip || skipTags.contains (E.U.lower nm)
    match linkWalk E cfg skipTags ns' fuel skip' (kids.map fun n => (false, n)) with
    | .done kids' =>
      match (if tpl then linkWalk E cfg skipTags none fuel skip' (content.map fun n => (false, n)) else .done content) with
      | .done content' =>
        match linkWalk E cfg skipTags ns fuel skip rest with
        | .done ks => .done (.elem nm ns' attrs kids' tpl content' :: ks)
        | w => w
      | w => w
    | w => w
  | fuel + 1, skip, (_, .doc kids) :: rest =>
    match linkWalk E cfg skipTags none fuel skip (kids.map fun n => (false, n)) with
    | .done kids' =>
      match linkWalk E cfg skipTags ns fuel skip rest with
      | .done ks => .done (.doc kids' :: ks)
      | w => w
    | w => w
  | fuel + 1, skip, (_, n) :: rest =>
    match linkWalk E cfg skipTags ns fuel skip rest with
    | .done ks => .done (n :: ks)
    | w => w

end JH
