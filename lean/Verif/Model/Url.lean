import Verif.Model.Py
import Verif.Model.TextOps
import Verif.Model.Entities
import Verif.Model.Escape

/-! Model of the URL policy: sanitizer/url/runtime.py, sanitizer/url/policy.py, sanitizer/url/spec.py, the fast path of
parser/engine.py and `JustHTML.clean_url_value`. -/
namespace JH

/-- The parts of the Python runtime the URL code calls and that are not modelled further: the Unicode database, the extra
`ValueError`s of `urllib.parse.urlsplit` (bracketed hosts and NFKC checks on the authority), `str.isdecimal()`, and whether
`float(digits)` is positive. Theorems hold for every choice; only ASCII behaviour and the two stated facts are
pinned. -/
structure UrlEnv where
  U : Uni
  /-- `urlsplit` does not raise for this authority -/
  netlocOk : Str → Bool
  /-- `str.isdecimal()` of one character -/
  isDecimal : Char → Bool
  /-- `float(text) > 0` for a text matched by the density pattern -/
  densityPos : Str → Bool
  isDecimal_ascii : ∀ c, isAscii c = true → isDecimal c = isDigitC c
  /-- Unicode: decimal digits are not in the invisible ranges. -/
  isDecimal_visible : ∀ c, isDecimal c = true → isInvisible c = false
  /-- Unicode: lower-casing does not produce characters of the invisible ranges. -/
  lower_visible : ∀ s, (∀ c ∈ s, isInvisible c = false) → ∀ c ∈ U.lower s, isInvisible c = false

theorem small_visible (c : Char) (h : c.toNat < 0x61C) : isInvisible c = false := by
  simp only [isInvisible, invisibleRanges, List.any_cons, List.any_nil, Bool.or_false, Bool.or_eq_false_iff, Bool.and_eq_false_iff,
    decide_eq_false_iff_not]
  omega

/-- A concrete environment. -/
def UrlEnv.sample : UrlEnv where
  U := Uni.sample
  netlocOk := fun _ => true
  isDecimal := isDigitC
  densityPos := fun t => t.any fun c => '1'.toNat ≤ c.toNat && c.toNat ≤ '9'.toNat
  isDecimal_ascii := fun _ _ => rfl
  isDecimal_visible := fun c h => by
    apply small_visible
    simp only [isDigitC, Bool.and_eq_true, decide_eq_true_eq] at h
    have : '9'.toNat = 57 := rfl
    omega
  lower_visible := fun s h c hc => by
    simp only [Uni.sample, lowerA, List.mem_map] at hc
    obtain ⟨d, hd, rfl⟩ := hc
    by_cases hu : isUpperC d = true
    · have := lowerC_toNat d hu
      apply small_visible; omega
    · have : lowerC d = d := by simp [lowerC, hu]
      rw [this]; exact h d hd

/-- sanitizer/url/policy.py:20 `UrlHandling`. -/
inductive UrlHandling | allow | strip | proxy
deriving DecidableEq, Repr

/-- sanitizer/url/policy.py:24-41 `UrlProxy`. -/
structure UrlProxy where
  url : Str
  param : Str
deriving DecidableEq, Repr

/-- sanitizer/url/policy.py:43-77 `UrlRule`. -/
structure UrlRule where
  allowFragment : Bool := true
  resolve : Option Str := some c%"https"
  schemes : List Str := []
  hosts : Option (List Str) := none
  handling : Option UrlHandling := none
  allowRelative : Option Bool := none
  proxy : Option UrlProxy := none
deriving DecidableEq, Repr

/-- `UrlFilter` (sanitizer/url/policy.py:9): any Python callable from tag, attribute and value to an optional value. -/
abbrev UrlFilter := Str → Str → Str → Option Str

/-- sanitizer/url/policy.py:81-107 `UrlPolicy`. -/
structure UrlPolicy where
  defaultHandling : UrlHandling := .allow
  defaultAllowRelative : Bool := true
  rules : List ((Str × Str) × UrlRule) := []
  filter : Option UrlFilter := none
  proxy : Option UrlProxy := none

/-- sanitizer/url/runtime.py:27-29 `_proxy_url_value`. -/
def proxyUrl (p : UrlProxy) (value : Str) : Str :=
  p.url ++ (if p.url.contains '?' then c%"&" else c%"?") ++ urlQuote (fun _ => false) p.param ++ c%"=" ++
    urlQuote (fun _ => false) value

/-- sanitizer/url/runtime.py:33-34,35,37 `[\x00-\x20\x7f]`. -/
def isUrlWs (c : Char) : Bool := c.toNat ≤ 0x20 || c.toNat = 0x7f

/-- sanitizer/url/runtime.py:36 `[\x00-\x1f\x7f]`. -/
def isUrlControl (c : Char) : Bool := c.toNat ≤ 0x1f || c.toNat = 0x7f

/-- sanitizer/url/runtime.py:47-50 `_normalize_url_for_checking`. -/
def normUrl (v : Str) : Str := if v.any isUrlWs then v.filter (fun c => !isUrlWs c) else v

/-- sanitizer/url/runtime.py:61-66 `_prepare_standalone_url_value_for_checking`; `none` when decoding raises (see C13). -/
def prepareUrl (U : Uni) (T : EntTables) (v : Str) : Option Str :=
  if v.contains '&' then (decodeEntities U T true v).map stripInvisible else some (stripInvisible v)

/-- sanitizer/url/runtime.py:69-77 `_is_valid_scheme` (only called with a non-empty prefix). -/
def isValidScheme : Str → Bool
  | [] => false
  | f :: r => isAsciiAlpha f && r.all fun c => isAsciiAlpha c || isDigitC c || c = '+' || c = '-' || c = '.'

/-- sanitizer/url/runtime.py:80-91 `_scheme_like_prefix`: the first `:` must come after at least one character and before the
first `/`, `?` and `#`. -/
def schemeLikePrefix (v : Str) : Option Str :=
  match find? c%":" v with
  | none => none
  | some idx =>
    if idx = 0 then none
    else
      let stop := fun (e : Nat) (sep : Str) => match find? sep v with | some j => if j < e then j else e | none => e
      if idx ≥ stop (stop (stop v.length c%"/") c%"?") c%"#" then none else some (v.take idx)

/-- sanitizer/url/runtime.py:94-100 `_get_scheme`. -/
def getScheme (U : Uni) (v : Str) : Option Str :=
  match schemeLikePrefix v with
  | none => none
  | some s => if isValidScheme s then some (U.lower s) else none

/-- sanitizer/url/runtime.py:103-105 `_has_invalid_scheme_like_prefix`. -/
def hasInvalidSchemePrefix (v : Str) : Bool :=
  match schemeLikePrefix v with
  | none => false
  | some s => !isValidScheme s

/-- CPython `urllib.parse.urlsplit`: the text after the scheme, if there is one. -/
def urlRest (u : Str) : Str :=
  match find? c%":" u with
  | none => u
  | some i => if isValidScheme (u.take i) then u.drop (i + 1) else u

/-- CPython `urllib.parse.urlsplit(url).netloc` (Lib/urllib/parse.py): leading C0 controls and spaces dropped, tab and newlines
removed, the scheme cut at the first `:` when everything before it is a scheme, and the authority after `//` up to the first
`/`, `?` or `#`. `none` models `ValueError`. -/
def urlsplitNetloc (E : UrlEnv) (v : Str) : Option Str :=
  let u := (lstripP (fun c => c.toNat ≤ 0x20) v).filter fun c => !(c = '\t' || c = '\n' || c = '\r')
  let rest := urlRest u
  let netloc := if startsWith c%"//" rest then (rest.drop 2).takeWhile (fun c => c ≠ '/' && c ≠ '?' && c ≠ '#') else []
  if E.netlocOk netloc then some netloc else none

/-- `s.rpartition("@")[2]`, equal to `s.rsplit("@", 1)[-1]`: the text after the last `@`. -/
def afterAt (s : Str) : Str := (s.reverse.takeWhile (· ≠ '@')).reverse

/-- CPython `_NetlocResultMixinStr._hostinfo`: host and port text (empty port when absent). -/
def hostinfo (netloc : Str) : Str × Str :=
  let h := afterAt netloc
  let (_, br, bracketed) := partitionC '[' h
  if br then
    let (host, _, port) := partitionC ']' bracketed
    (host, (partitionC ':' port).2.2)
  else
    let (host, _, port) := partitionC ':' h
    (host, port)

/-- `int(digits)`. -/
def digitsVal (s : Str) : Nat := s.foldl (fun n c => n * 10 + (c.toNat - 48)) 0

/-- `SplitResult.port` does not raise. -/
def portOk (port : Str) : Bool := port.isEmpty || (port.all isDigitC && digitsVal port ≤ 65535)

/-- `SplitResult.hostname`, `""` for `None`: lower-cased up to a `%` zone. -/
def hostname (U : Uni) (netloc : Str) : Str :=
  let h := (hostinfo netloc).1
  let (host, pct, zone) := partitionC '%' h
  U.lower host ++ (if pct then '%' :: zone else [])

/-- sanitizer/url/runtime.py:123-130 `_raw_authority_host`. -/
def rawAuthorityHost (netloc : Str) : Str :=
  let a := afterAt netloc
  if startsWith c%"[" a then
    let (inner, ok, _) := partitionC ']' (a.drop 1)
    if ok then inner else []
  else if a.contains ':' then (((a.reverse.dropWhile (· ≠ ':')).drop 1)).reverse
  else a

/-- sanitizer/url/runtime.py:152-160 `_is_canonical_ipv4_decimal_label`. -/
def canonicalIpv4Label (E : UrlEnv) (v : Str) : Bool :=
  v.all isAscii && !v.isEmpty && v.all E.isDecimal && v.length ≤ 3 && (v.length = 1 || v.head? ≠ some '0') &&
    (v.length < 3 || digitsVal v ≤ 255)

/-- sanitizer/url/runtime.py:163-168 `_is_legacy_ipv4_number`. -/
def legacyIpv4Number (E : UrlEnv) (v : Str) : Bool :=
  if v.isEmpty then false
  else if startsWith c%"0x" (E.U.lower v) then v.length > 2 && (v.drop 2).all fun c => c%"0123456789abcdefABCDEF".contains c
  else v.all E.isDecimal

/-- sanitizer/url/runtime.py:143-149 `_is_noncanonical_numeric_ipv4_host`. -/
def noncanonicalIpv4 (E : UrlEnv) (host : Str) : Bool :=
  let labels := splitC '.' host
  if !(1 ≤ labels.length && labels.length ≤ 4) then false
  else if !labels.all (legacyIpv4Number E) then false
  else !(labels.length = 4 && labels.all (canonicalIpv4Label E))

/-- sanitizer/url/runtime.py:133-140 `_uses_canonical_ascii_url_host`. -/
def canonicalAsciiHost (E : UrlEnv) (host : Str) : Bool :=
  if host.contains '%' then false
  else if host.any fun c => c.toNat > 0x7f then false
  else !(!host.contains ':' && noncanonicalIpv4 E host)

/-- sanitizer/url/runtime.py:108-121 `_url_host_matches_allowed_hosts`. -/
def hostMatches (E : UrlEnv) (v : Str) (hosts : List Str) : Bool :=
  match urlsplitNetloc E v with
  | none => false
  | some netloc =>
    if !portOk (hostinfo netloc).2 then false
    else if netloc.any isUrlWs then false
    else
      let raw := rawAuthorityHost netloc
      if raw.isEmpty || !canonicalAsciiHost E raw then false
      else
        let host := E.U.lower (hostname E.U netloc)
        !host.isEmpty && hosts.contains host

/-- sanitizer/url/runtime.py:171-172 `_effective_proxy`. -/
def effProxy (p : UrlPolicy) (r : UrlRule) : Option UrlProxy := match r.proxy with | some x => some x | none => p.proxy

/-- sanitizer/url/runtime.py:175-176 `_effective_url_handling`. -/
def effHandling (p : UrlPolicy) (r : UrlRule) : UrlHandling := r.handling.getD p.defaultHandling

/-- sanitizer/url/runtime.py:179-180 `_effective_allow_relative`. -/
def effAllowRelative (p : UrlPolicy) (r : UrlRule) : Bool := r.allowRelative.getD p.defaultAllowRelative

/-- The repeated tail of `_sanitize_url_value_with_rule` (sanitizer/url/runtime.py:248-252, 271-275, 286-290, 294-298, 303-307). -/
def finishUrl (h : UrlHandling) (proxy : Option UrlProxy) (v : Str) : Option Str :=
  match h with
  | .strip => none
  | .proxy => proxy.map fun p => proxyUrl p v
  | .allow => some v

/-- sanitizer/url/runtime.py:234-307: the part of `_sanitize_url_value_with_rule` after the filter and `strip()`. -/
def checkStripped (E : UrlEnv) (rule : UrlRule) (h : UrlHandling) (allowRelative : Bool) (proxy : Option UrlProxy)
    (stripped : Str) : Option Str :=
  if stripped.any isUrlControl then none
  else
    let n := normUrl stripped
    if n.isEmpty then none
    else if n.contains '\\' then none
    else if startsWith c%"#" n then
      if !rule.allowFragment then none else finishUrl h proxy stripped
    else if h = .proxy && hasInvalidSchemePrefix n then none
    else if startsWith c%"//" n then
      match rule.resolve with
      | none => none
      | some r0 =>
        if r0.isEmpty then none
        else
          let r := E.U.lower r0
          if !rule.schemes.contains r then none
          else if (match rule.hosts with | some hs => !hostMatches E (r ++ c%":" ++ stripped) hs | none => false) then none
          else finishUrl h proxy (r ++ c%":" ++ n)
    else
      match getScheme E.U n with
      | some s =>
        if !rule.schemes.contains s then none
        else if (s = c%"http" || s = c%"https") && !startsWith (s ++ c%"://") n then
          if rule.hosts.isSome then none
          else if !allowRelative then none
          else finishUrl h proxy stripped
        else if (match rule.hosts with | some hs => !hostMatches E stripped hs | none => false) then none
        else finishUrl h proxy stripped
      | none =>
        if !allowRelative then none else finishUrl h proxy stripped

/-- sanitizer/url/runtime.py:212-307 `_sanitize_url_value_with_rule`; `filter = none` also models `apply_filter=False`. -/
def sanitizeUrl (E : UrlEnv) (rule : UrlRule) (tag attr : Str) (h : UrlHandling) (allowRelative : Bool)
    (proxy : Option UrlProxy) (filter : Option UrlFilter) (value : Str) : Option Str :=
  match (match filter with | some f => f tag attr value | none => some value) with
  | none => none
  | some v => checkStripped E rule h allowRelative proxy (stripP E.U.isSpace (stripInvisible v))

/-- The value of a hexadecimal digit in `urllib.parse.unquote_to_bytes`. -/
def hexOf (c : Char) : Option Nat :=
  if isDigitC c then some (c.toNat - '0'.toNat)
  else if 'a'.toNat ≤ c.toNat && c.toNat ≤ 'f'.toNat then some (c.toNat - 'a'.toNat + 10)
  else if 'A'.toNat ≤ c.toNat && c.toNat ≤ 'F'.toNat then some (c.toNat - 'A'.toNat + 10)
  else none

/-- `urllib.parse.unquote_to_bytes` (called by `parse_qsl`, sanitizer/url/runtime.py:193): the text between the `%`s, each with its
two hexadecimal digits replaced by a byte. -/
def unquoteBytes : Str → List Nat
  | [] => []
  | '%' :: a :: b :: r =>
    match hexOf a, hexOf b with
    | some x, some y => (x * 16 + y) :: unquoteBytes r
    | _, _ => '%'.toNat :: unquoteBytes (a :: b :: r)
  | c :: r => utf8 c ++ unquoteBytes r

/-- `urllib.parse.parse_qsl(query, keep_blank_values=True)` (sanitizer/url/runtime.py:193). `dec` is the UTF-8 decoder with
`errors="replace"`; `unquote` applies it to each maximal ASCII run, which is the same as applying it to the whole text because every
other character starts a new UTF-8 sequence. -/
def parseQsl (dec : List Nat → Str) (query : Str) : List (Str × Str) :=
  (splitC '&' query).filterMap fun piece =>
    if piece.isEmpty then none
    else
      let (name, _, value) := partitionC '=' piece
      some (dec (unquoteBytes (name.map fun c => if c = '+' then ' ' else c)),
        dec (unquoteBytes (value.map fun c => if c = '+' then ' ' else c)))

/-- sanitizer/url/runtime.py:183-209 `_validate_proxy_url` and sanitizer/url/policy.py:29-41 `UrlProxy.__post_init__`; `none` when a
`ValueError` is raised. `urlsplit` also trims and removes some control characters and may raise: the check at the end refuses every
URL with control characters, so this does not change which URLs are accepted, except that more are refused. -/
def validProxy (E : UrlEnv) (dec : List Nat → Str) (url param : Str) : Option UrlProxy :=
  let u := stripP E.U.isSpace url
  if u.isEmpty || param.isEmpty then none
  else
    let n := normUrl u
    if hasInvalidSchemePrefix n then none
    else if (match getScheme E.U n with
        | some s => (s = c%"http" || s = c%"https") && !startsWith (s ++ c%"://") n
        | none => false) then none
    else if !((u.dropWhile (· ≠ '#')).drop 1).isEmpty then none
    else if (parseQsl dec (((u.takeWhile (· ≠ '#')).dropWhile (· ≠ '?')).drop 1)).any (fun nv => nv.1 = param) then none
    else if (sanitizeUrl E { resolve := none, schemes := [c%"http", c%"https"] } c%"*" c%"urlproxy" .allow true none none u).isNone
    then none
    else some ⟨u, param⟩

/-- sanitizer/url/policy.py:88-107 `UrlPolicy.__post_init__`; `none` when a `ValueError` is raised. The type checks and the refusal
of unknown handling names are typing in the model. -/
def newUrlPolicy (p : UrlPolicy) : Option UrlPolicy :=
  if p.rules.any (fun kr => kr.2.handling.getD p.defaultHandling = .proxy && p.proxy.isNone && kr.2.proxy.isNone) then none
  else some p

/-- `re.split(r"[\s,]+", text)` with the empty pieces dropped (sanitizer/url/runtime.py:432), and `str.split()`. -/
def splitList (E : UrlEnv) (comma : Bool) (v : Str) : List Str :=
  splitWs (fun c => E.U.isSpace c || (comma && c = ',')) [] v

/-- sanitizer/url/runtime.py:437-466 `_sanitize_url_tokens`. -/
def sanitizeTokens (E : UrlEnv) (p : UrlPolicy) (rule : UrlRule) (tag attr : Str) : List Str → Option (List Str)
  | [] => some []
  | t :: ts =>
    match sanitizeUrl E rule tag attr (effHandling p rule) (effAllowRelative p rule) (effProxy p rule) none t with
    | none => none
    | some s => (sanitizeTokens E p rule tag attr ts).map (s :: ·)

/-- The value after the policy's filter (sanitizer/url/runtime.py:318-323, 397-402, 421-426). -/
def applyListFilter (p : UrlPolicy) (tag attr value : Str) : Option Str :=
  match p.filter with
  | none => some value
  | some f => (f tag attr value).map stripInvisible

/-- sanitizer/url/runtime.py:389-410 and 413-434 `_sanitize_space_separated_url_list`,
`_sanitize_comma_or_space_separated_url_list`. -/
def sanitizeList (E : UrlEnv) (comma : Bool) (p : UrlPolicy) (rule : UrlRule) (tag attr value : Str) : Option Str :=
  match applyListFilter p tag attr value with
  | none => none
  | some v =>
    let stripped := stripP E.U.isSpace v
    if stripped.isEmpty then none
    else match sanitizeTokens E p rule tag attr (splitList E comma stripped) with
      | none => none
      | some [] => none
      | some out => some (join c%" " out)

/-- One or more digits, then optionally `.` and digits, or `.` and digits: `(?:[0-9]+(?:\.[0-9]+)?|\.[0-9]+)x\Z`
(sanitizer/url/runtime.py:38). -/
def densityMatch (t : Str) : Bool :=
  endsWith c%"x" t &&
    (let n := t.dropLast
     let (a, dot, b) := partitionC '.' n
     if dot then a.all isDigitC && b.all isDigitC && !b.isEmpty else a.all isDigitC && !a.isEmpty)

/-- sanitizer/url/runtime.py:362-385 `_sanitize_srcset_descriptor`. -/
def sanitizeDescriptor (E : UrlEnv) (v : Str) : Option Str :=
  if v.isEmpty then some []
  else match splitWs E.U.isSpace [] v with
    | [t0] =>
      let t := E.U.lower t0
      if endsWith c%"w" t || endsWith c%"h" t then
        let n := t.dropLast
        if n.isEmpty || !n.all E.isDecimal || (stripP (· = '0') n).isEmpty then none else some t
      else if endsWith c%"x" t then
        if !densityMatch t then none
        else if !E.densityPos t.dropLast then none
        else some t
      else none
    | _ => none

/-- One candidate of `_sanitize_srcset_value` (sanitizer/url/runtime.py:335-358): `c.split(None, 1)`, the URL check and the
descriptor check. -/
def sanitizeCandidate (E : UrlEnv) (p : UrlPolicy) (rule : UrlRule) (tag attr c : Str) : Option Str :=
  let tok := c.takeWhile (fun x => !E.U.isSpace x)
  let desc := stripP E.U.isSpace (c.dropWhile (fun x => !E.U.isSpace x))
  match sanitizeUrl E rule tag attr (effHandling p rule) (effAllowRelative p rule) (effProxy p rule) none tok with
  | none => none
  | some u =>
    match sanitizeDescriptor E desc with
    | none => none
    | some d => some (stripP E.U.isSpace (u ++ c%" " ++ d))

/-- The loop of `_sanitize_srcset_value` (sanitizer/url/runtime.py:333-360). -/
def sanitizeCandidates (E : UrlEnv) (p : UrlPolicy) (rule : UrlRule) (tag attr : Str) : List Str → Option (List Str)
  | [] => some []
  | raw :: rest =>
    let c := stripP E.U.isSpace raw
    if c.isEmpty then sanitizeCandidates E p rule tag attr rest
    else match sanitizeCandidate E p rule tag attr c with
      | none => none
      | some s => (sanitizeCandidates E p rule tag attr rest).map (s :: ·)

/-- sanitizer/url/runtime.py:310-360 `_sanitize_srcset_value`. -/
def sanitizeSrcset (E : UrlEnv) (p : UrlPolicy) (rule : UrlRule) (tag attr value : Str) : Option Str :=
  match applyListFilter p tag attr value with
  | none => none
  | some v =>
    let stripped := stripP E.U.isSpace v
    if stripped.isEmpty then none
    else match sanitizeCandidates E p rule tag attr (splitC ',' stripped) with
      | none => none
      | some [] => none
      | some out => some (join c%", " out)

/-- sanitizer/url/runtime.py:469-490 `_extract_meta_refresh_url`. -/
def extractRefresh (E : UrlEnv) (value : Str) : Option (Str × Str) :=
  let (pre, sep, urlValue) := partitionC ';' value
  let (urlPre, urlSep, cand0) := partitionC '=' urlValue
  if !sep || E.U.lower (stripP E.U.isSpace urlPre) ≠ c%"url" || !urlSep then none
  else
    let cand1 := stripP E.U.isSpace cand0
    match cand1 with
    | [] => none
    | q :: r =>
      let cand := if q = '\'' || q = '"' then r.takeWhile (· ≠ q) else cand1
      if cand.isEmpty then none
      else if cand.any fun c => c = ',' || c = ';' then none
      else some (stripP E.U.isSpace pre, cand)

/-- sanitizer/url/runtime.py:493-511 `_sanitize_simple_url_sink_value`. -/
def sanitizeSimple (E : UrlEnv) (p : UrlPolicy) (rule : UrlRule) (tag attr value : Str) : Option Str :=
  sanitizeUrl E rule tag attr (effHandling p rule) (effAllowRelative p rule) (effProxy p rule) p.filter value

/-- sanitizer/url/runtime.py:514-534 `_sanitize_meta_refresh_sink_value`. -/
def sanitizeRefresh (E : UrlEnv) (p : UrlPolicy) (rule : UrlRule) (tag attr value : Str) : Option Str :=
  match extractRefresh E value with
  | none => none
  | some (pre, cand) =>
    match sanitizeSimple E p rule tag attr cand with
    | none => none
    | some u => some (stripP E.U.isSpace pre ++ c%";url=" ++ u)

/-- parser/engine.py:271-329 `_sanitize_simple_url_fast`: `none` is `_URL_FAST_FALLBACK`, `some r` is an answer.
`str.isprintable()` of an ASCII string means every character is in 0x20-0x7e. -/
def fastUrl (E : UrlEnv) (rule : UrlRule) (allowRelative : Bool) (value : Str) : Option (Option Str) :=
  if !value.all isAscii then none
  else
    let s := stripP E.U.isSpace value
    let printable := s.all fun c => 0x20 ≤ c.toNat && c.toNat ≤ 0x7e
    if s.isEmpty then some none
    else if startsWith c%"https://" s && !s.contains ' ' && printable then
      some (if rule.schemes.contains c%"https" then some s else none)
    else if startsWith c%"http://" s && !s.contains ' ' && printable then
      some (if rule.schemes.contains c%"http" then some s else none)
    else if !printable then some none
    else if !s.contains ':' then
      if s.contains '\\' then some none
      else if startsWith c%"#" s then some (if rule.allowFragment then some s else none)
      else if startsWith c%"//" s then
        match rule.resolve with
        | none => some none
        | some r0 =>
          if r0.isEmpty then some none
          else if !rule.schemes.contains (E.U.lower r0) then some none
          else some (some (E.U.lower r0 ++ c%":" ++ s))
      else some (if allowRelative then some s else none)
    else
      let n := normUrl s
      if n.isEmpty || n.contains '\\' then some none
      else if startsWith c%"#" n then some (if rule.allowFragment then some s else none)
      else if startsWith c%"//" n then
        match rule.resolve with
        | none => some none
        | some r0 =>
          if r0.isEmpty then some none
          else if !rule.schemes.contains (E.U.lower r0) then some none
          else some (some (E.U.lower r0 ++ c%":" ++ n))
      else match getScheme E.U n with
        | some sc =>
          if !rule.schemes.contains sc then some none
          else if (sc = c%"http" || sc = c%"https") && !startsWith (sc ++ c%"://") n && !allowRelative then some none
          else some (some s)
        | none => some (if allowRelative then some s else none)

/-- parser/__init__.py:336-366 `JustHTML.clean_url_value`: `none` is an exception (proxy handling without a proxy, or the one of C13),
`some none` the returned `None`. -/
def cleanUrlValue (E : UrlEnv) (T : EntTables) (value : Str) (rule : UrlRule) : Option (Option Str) :=
  if rule.handling = some .proxy && rule.proxy.isNone then none
  else match prepareUrl E.U T value with
    | none => none
    | some v =>
      some ((sanitizeUrl E rule c%"*" c%"*" (rule.handling.getD .allow) (rule.allowRelative.getD true) rule.proxy none v).map escapeUrl)

end JH
