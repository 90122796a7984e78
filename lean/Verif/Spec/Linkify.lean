import Verif.Model.Py
import Verif.Model.Tree
import Verif.Model.Linkify

/-! Specification vocabulary for the link finder and the Linkify transform (C46, C47, C69-C72). -/
namespace JH.Spec
open JH

/-- `s[a:b]`. -/
def slice (s : Str) (a b : Nat) : Str := (s.take b).drop a

/-- A match is a non-empty slice of the text it was found in. -/
def ExactMatch (text : Str) (m : LinkMatch) : Prop :=
  m.start < m.stop ∧ m.stop ≤ text.length ∧ m.text = slice text m.start m.stop

/-- The text begins with `p`, in any mixture of ASCII capitals and small letters. -/
def Begins (p s : Str) : Prop := ∃ a b, s = a ++ b ∧ lowerA a = p

/-- The schemes a generated link may have. -/
def linkSchemes : List Str := [c%"http://", c%"https://", c%"ftp://", c%"mailto:", c%"//"]

/-- What is put before the text of a link to make its address. -/
inductive DefaultScheme (text : Str) : Str → Prop
  | own (p : Str) (hp : p ∈ linkSchemes) (h : Begins p text) : DefaultScheme text []
  | mail (h : '@' ∈ text) (hw : ¬ Begins c%"www." text) (hn : ∀ p ∈ linkSchemes, ¬ Begins p text) : DefaultScheme text c%"mailto:"
  | web (h : '@' ∉ text ∨ Begins c%"www." text) (hn : ∀ p ∈ linkSchemes, ¬ Begins p text) : DefaultScheme text c%"http://"

/-- `href` is `full` with its host re-encoded by `enc`; an empty user name and an empty port may lose their `@` and `:`. -/
def Reencoded (enc : Str → Str) (full href : Str) : Prop :=
  href = full ∨ ∃ u x host y w, full = u ++ x ++ host ++ y ++ w ∧ href = u ++ enc host ++ w ∧ (x = [] ∨ x = ['@']) ∧
    (y = [] ∨ y = [':']) ∧ ∀ c ∈ host, c ∉ c%"/?#@:"

mutual
/-- The text of a node: its text nodes, concatenated. -/
def plainText : Node → Str
  | .text d => d
  | .comment _ => []
  | .pi _ => []
  | .doctype _ _ _ => []
  | .doc kids => plainTextL kids
  | .elem _ _ _ kids _ content => plainTextL kids ++ plainTextL content
/-- The text of a list of nodes. -/
def plainTextL : List Node → Str
  | [] => []
  | n :: ns => plainText n ++ plainTextL ns
end

/-- The namespace of a new link: that of its parent, or `html`. -/
def orHtml : Option Str → Str
  | none => c%"html"
  | some ns => if ns = [] then c%"html" else ns

/-- The link element for a match. -/
def anchor (ns : Str) (m : LinkMatch) : Node := .elem c%"a" (some ns) [(c%"href", some m.href)] [.text m.text] false []

/-- A text node `d` cut at its links: the pieces are non-empty text nodes and link elements, their texts make up `d`, the links are
those of `ms` in order, and each stands at the offset of its match. -/
def CutAt (ns : Str) (d : Str) (ms : List LinkMatch) (ps : List Node) : Prop :=
  plainTextL ps = d ∧ (∀ p ∈ ps, (∃ t, p = .text t ∧ t ≠ []) ∨ ∃ m ∈ ms, p = anchor ns m) ∧
    ps.filter (fun p => match p with | .elem .. => true | _ => false) = ms.map (anchor ns) ∧
    ∀ l m r, ps = l ++ anchor ns m :: r → ∃ m' ∈ ms, anchor ns m' = anchor ns m ∧ (plainTextL l).length = m'.start

/-- What Linkify does to a list of children: `off` says that a skip tag encloses them, `ns` is the namespace of their parent. Only
text nodes outside the skip tags change, and only into their cut at the links `find_links` reports. -/
inductive Linkified (E : LinkEnv) (cfg : LinkCfg) (skip : List Str) : Option Str → Bool → List Node → List Node → Prop
  | nil {ns off} : Linkified E cfg skip ns off [] []
  | skipped {ns d ks ks'} : Linkified E cfg skip ns true ks ks' → Linkified E cfg skip ns true (.text d :: ks) (.text d :: ks')
  | plain {ns d ks ks'} : findLinks E cfg d = .ok [] → Linkified E cfg skip ns false ks ks' →
      Linkified E cfg skip ns false (.text d :: ks) (.text d :: ks')
  | links {ns d ms ps ks ks'} : findLinks E cfg d = .ok ms → ms ≠ [] →
      CutAt (orHtml ns) d ms ps →
      Linkified E cfg skip ns false ks ks' → Linkified E cfg skip ns false (.text d :: ks) (ps ++ ks')
  | elem {ns off nm ns' attrs kids kids' content ks ks'} :
      Linkified E cfg skip ns' (off || decide (E.U.lower nm ∈ skip)) kids kids' → Linkified E cfg skip ns off ks ks' →
      Linkified E cfg skip ns off (.elem nm ns' attrs kids false content :: ks) (.elem nm ns' attrs kids' false content :: ks')
  | template {ns off nm ns' attrs kids kids' content content' ks ks'} :
      Linkified E cfg skip ns' (off || decide (E.U.lower nm ∈ skip)) kids kids' →
      Linkified E cfg skip none (off || decide (E.U.lower nm ∈ skip)) content content' → Linkified E cfg skip ns off ks ks' →
      Linkified E cfg skip ns off (.elem nm ns' attrs kids true content :: ks) (.elem nm ns' attrs kids' true content' :: ks')
  | doc {ns off kids kids' ks ks'} : Linkified E cfg skip none off kids kids' → Linkified E cfg skip ns off ks ks' →
      Linkified E cfg skip ns off (.doc kids :: ks) (.doc kids' :: ks')
  | other {ns off n ks ks'} : (match n with | .comment _ => True | .pi _ => True | .doctype _ _ _ => True | _ => False) →
      Linkified E cfg skip ns off ks ks' → Linkified E cfg skip ns off (n :: ks) (n :: ks')

mutual
/-- The text nodes Linkify looks at: those outside the skip tags. -/
def openTexts (U : Uni) (skip : List Str) : Bool → Node → List Str
  | off, .text d => if off then [] else [d]
  | _, .comment _ => []
  | _, .pi _ => []
  | _, .doctype _ _ _ => []
  | off, .doc kids => openTextsL U skip off kids
  | off, .elem nm _ _ kids tpl content =>
    openTextsL U skip (off || decide (U.lower nm ∈ skip)) kids ++
      (if tpl then openTextsL U skip (off || decide (U.lower nm ∈ skip)) content else [])
/-- The same for a list of nodes. -/
def openTextsL (U : Uni) (skip : List Str) : Bool → List Node → List Str
  | _, [] => []
  | off, n :: ns => openTexts U skip off n ++ openTextsL U skip off ns
end

/-- The country-code domains. -/
def countryCodes : List Str :=
  [c%"ac", c%"ad", c%"ae", c%"af", c%"ag", c%"ai", c%"al", c%"am", c%"an", c%"ao", c%"aq", c%"ar", c%"as", c%"at", c%"au",
   c%"aw", c%"ax", c%"az", c%"ba", c%"bb", c%"bd", c%"be", c%"bf", c%"bg", c%"bh", c%"bi", c%"bj", c%"bm", c%"bn", c%"bo",
   c%"br", c%"bs", c%"bt", c%"bv", c%"bw", c%"by", c%"bz", c%"ca", c%"cc", c%"cd", c%"cf", c%"cg", c%"ch", c%"ci", c%"ck",
   c%"cl", c%"cm", c%"cn", c%"co", c%"cr", c%"cu", c%"cv", c%"cw", c%"cx", c%"cy", c%"cz", c%"de", c%"dj", c%"dk", c%"dm",
   c%"do", c%"dz", c%"ec", c%"ee", c%"eg", c%"er", c%"es", c%"et", c%"eu", c%"fi", c%"fj", c%"fk", c%"fm", c%"fo", c%"fr",
   c%"ga", c%"gb", c%"gd", c%"ge", c%"gf", c%"gg", c%"gh", c%"gi", c%"gl", c%"gm", c%"gn", c%"gp", c%"gq", c%"gr", c%"gs",
   c%"gt", c%"gu", c%"gw", c%"gy", c%"hk", c%"hm", c%"hn", c%"hr", c%"ht", c%"hu", c%"id", c%"ie", c%"il", c%"im", c%"in",
   c%"io", c%"iq", c%"ir", c%"is", c%"it", c%"je", c%"jm", c%"jo", c%"jp", c%"ke", c%"kg", c%"kh", c%"ki", c%"km", c%"kn",
   c%"kp", c%"kr", c%"kw", c%"ky", c%"kz", c%"la", c%"lb", c%"lc", c%"li", c%"lk", c%"lr", c%"ls", c%"lt", c%"lu", c%"lv",
   c%"ly", c%"ma", c%"mc", c%"md", c%"me", c%"mg", c%"mh", c%"mk", c%"ml", c%"mm", c%"mn", c%"mo", c%"mp", c%"mq", c%"mr",
   c%"ms", c%"mt", c%"mu", c%"mv", c%"mw", c%"mx", c%"my", c%"mz", c%"na", c%"nc", c%"ne", c%"nf", c%"ng", c%"ni", c%"nl",
   c%"no", c%"np", c%"nr", c%"nu", c%"nz", c%"om", c%"pa", c%"pe", c%"pf", c%"pg", c%"ph", c%"pk", c%"pl", c%"pm", c%"pn",
   c%"pr", c%"ps", c%"pt", c%"pw", c%"py", c%"qa", c%"re", c%"ro", c%"rs", c%"ru", c%"rw", c%"sa", c%"sb", c%"sc", c%"sd",
   c%"se", c%"sg", c%"sh", c%"si", c%"sj", c%"sk", c%"sl", c%"sm", c%"sn", c%"so", c%"sr", c%"st", c%"su", c%"sv", c%"sx",
   c%"sy", c%"sz", c%"tc", c%"td", c%"tf", c%"tg", c%"th", c%"tj", c%"tk", c%"tl", c%"tm", c%"tn", c%"to", c%"tr", c%"tt",
   c%"tv", c%"tw", c%"tz", c%"ua", c%"ug", c%"uk", c%"us", c%"uy", c%"uz", c%"va", c%"vc", c%"ve", c%"vg", c%"vi", c%"vn",
   c%"vu", c%"wf", c%"ws", c%"ye", c%"yt", c%"za", c%"zm", c%"zw"]

/-- The other top-level domains known by default. -/
def genericTlds : List Str :=
  [c%"biz", c%"com", c%"edu", c%"gov", c%"net", c%"org", c%"pro", c%"web", c%"xxx", c%"aero", c%"asia", c%"coop", c%"info",
   c%"museum", c%"name", c%"shop", c%"рф"]

/-- The letter `c` is `l`, up to case; U+017F counts as an `s`, U+0130 and U+0131 count as an `i`. -/
def SameLetter (l c : Char) : Prop :=
  lowerC c = l ∨ (l = 's' ∧ c = '\u017f') ∨ (l = 'i' ∧ (c = '\u0130' ∨ c = '\u0131'))

/-- A top-level domain that makes a bare domain a link: a country code, a punycode one, a default one or a configured one. -/
def KnownTld (U : Uni) (extra : List Str) (tld : Str) : Prop :=
  (∃ a b x y, [x, y] ∈ countryCodes ∧ U.lower tld = [a, b] ∧ SameLetter x a ∧ SameLetter y b) ∨
    c%"xn--" <+: U.lower tld ∨ U.lower tld ∈ genericTlds ∨ (U.lower tld ∈ extra ∧ tld ≠ [])

/-- A host that ends with a known top-level domain (dots and spaces around it do not count). -/
def EndsInTld (U : Uni) (extra : List Str) (host : Str) : Prop :=
  ∃ l base tld r, host = l ++ base ++ '.' :: tld ++ r ∧ (∀ c ∈ l ++ r, c = '.' ∨ U.isSpace c = true) ∧ '.' ∉ tld ∧ KnownTld U extra tld

/-- The number written by decimal digits (of any script). -/
def decNumber (U : Uni) (n : Nat) : Str → Option Nat
  | [] => some n
  | c :: r => match U.decVal c with | some d => decNumber U (n * 10 + d) r | none => none

/-- One number of an IPv4 address. -/
def Octet (U : Uni) (p : Str) : Prop := p ≠ [] ∧ p.length ≤ 3 ∧ ∃ n, decNumber U 0 p = some n ∧ n ≤ 255

/-- An IPv4 address. -/
def Ipv4 (U : Uni) (host : Str) : Prop :=
  ∃ a b c d, host = a ++ '.' :: b ++ '.' :: c ++ '.' :: d ∧ Octet U a ∧ Octet U b ∧ Octet U c ∧ Octet U d

/-- `host` is the beginning of `s` up to the first `/`, `?` or `#`. -/
def HostPart (s host : Str) : Prop :=
  ∃ rest, s = host ++ rest ∧ (∀ c ∈ host, c ∉ c%"/?#") ∧ (∀ c, rest.head? = some c → c ∈ c%"/?#")

/-- `b` is what follows the last `c` in `s`, or all of `s`. -/
def AfterLast (c : Char) (s b : Str) : Prop := c ∉ b ∧ (s = b ∨ ∃ a, s = a ++ c :: b)

/-- A port number of at most five ASCII digits, up to 65535, or an empty one. -/
def GoodPort (port : Str) : Prop :=
  port = [] ∨ (port.length ≤ 5 ∧ (∀ c ∈ port, isDigitC c = true) ∧ (port.length = 5 → port ≤ c%"65535"))

/-- A host that can be linked to: not empty, no underscore, no dot or hyphen at its ends, no two dots in a row. -/
def GoodHost (host : Str) : Prop :=
  host ≠ [] ∧ '_' ∉ host ∧ (∀ c, host.head? = some c → c ≠ '-' ∧ c ≠ '.') ∧ (∀ c, host.getLast? = some c → c ≠ '-' ∧ c ≠ '.') ∧
    ¬ c%".." <:+: host

/-- A URL as people write it: a scheme in small letters, a host of ASCII letters, digits, hyphens and single dots with at least one
letter, and a path without white space, angle bracket, full-width bar or `)[`, which does not end in punctuation, nor in a quote
without partner, nor in a closing bracket without partner. -/
structure PlainUrl (U : Uni) (url : Str) where
  scheme : Str
  host : Str
  path : Str
  eq : url = scheme ++ c%"://" ++ host ++ path
  hscheme : scheme = c%"http" ∨ scheme = c%"https" ∨ scheme = c%"ftp"
  hchars : ∀ c ∈ host, isAsciiAlpha c = true ∨ isDigitC c = true ∨ c = '.' ∨ c = '-'
  hletter : ∃ c ∈ host, isAsciiAlpha c = true
  hfirst : ∀ c, host.head? = some c → isAsciiAlpha c = true ∨ isDigitC c = true
  hlast : ∀ c, host.getLast? = some c → isAsciiAlpha c = true ∨ isDigitC c = true
  hdots : ¬ c%".." <:+: host
  pfirst : ∀ c, path.head? = some c → c = '/'
  plast : ∀ c, path.getLast? = some c → c ∉ c%".,;:!?" ∧ (c = '"' ∨ c = '\'' → url.count c % 2 = 0) ∧
    ∀ p ∈ [('(', ')'), ('[', ']'), ('{', '}')], c = p.2 → url.count p.2 ≤ url.count p.1
  pchars : ∀ c ∈ path, U.isSpace c = false ∧ c ≠ '<' ∧ c ≠ '>' ∧ c ≠ '\uff5c'
  pbreak : ¬ c%")[" <:+: path

end JH.Spec
