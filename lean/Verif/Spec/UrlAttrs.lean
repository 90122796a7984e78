import Verif.Model.Sanitize
/-! Specification for C25: the attributes of HTML that hold addresses, listed on their own (HTML standard, "Attributes", and HTML 4.01, "Index of
attributes", those of type URI and lists of them). -/
namespace JH.Spec

/-- The attributes that hold an address, or a list of addresses written in some way. -/
def addressAttributes : List (Str × SinkKind) :=
  [(c%"action", .url), (c%"archive", .commaList), (c%"attributionsrc", .spaceList), (c%"background", .url), (c%"cite", .url),
   (c%"classid", .url), (c%"code", .url), (c%"codebase", .url), (c%"data", .url), (c%"dynsrc", .url), (c%"formaction", .url),
   (c%"href", .url), (c%"icon", .url), (c%"imagesrcset", .srcset), (c%"longdesc", .url), (c%"lowsrc", .url), (c%"manifest", .url),
   (c%"object", .url), (c%"ping", .spaceList), (c%"poster", .url), (c%"profile", .commaList), (c%"src", .url), (c%"srcset", .srcset),
   (c%"usemap", .url)]

/-- The names of a `param` whose value is an address. -/
def addressParams : List Str := [c%"code", c%"codebase", c%"data", c%"filename", c%"href", c%"movie", c%"src", c%"url"]

/-- The attribute `k` of an element `tag` with the attributes `as` holds an address. -/
inductive HoldsAddress (U : Uni) (tag : Str) (as : Attrs) : Str → SinkKind → Prop
  | listed {k kind} : (k, kind) ∈ addressAttributes → HoldsAddress U tag as k kind
  /-- `<meta http-equiv=refresh content=...>` -/
  | refresh (pre post : Attrs) (v : Str) : tag = c%"meta" → as = pre ++ (c%"http-equiv", some v) :: post → (∀ p ∈ pre, U.lower p.1 ≠ c%"http-equiv") →
      U.lower (stripP U.isSpace v) = c%"refresh" → HoldsAddress U tag as c%"content" .refresh
  /-- `<param name=movie value=...>` -/
  | param (pre post : Attrs) (v : Str) : tag = c%"param" → as = pre ++ (c%"name", some v) :: post → (∀ p ∈ pre, U.lower p.1 ≠ c%"name") →
      U.lower (stripP U.isSpace v) ∈ addressParams → HoldsAddress U tag as c%"value" .url

/-- The names above. -/
def addressNames : List Str := addressAttributes.map Prod.fst ++ [c%"content", c%"value"]

/-- The attribute `k` is to be checked as an address: it holds one, or the policy has a rule for it. -/
inductive CheckedAs (U : Uni) (p : UrlPolicy) (tag : Str) (as : Attrs) (k : Str) : SinkKind → Prop
  | holds {kind} : HoldsAddress U tag as k kind → CheckedAs U p tag as k kind
  | ruled : k ∉ addressNames → urlRuleFor p tag k ≠ none → CheckedAs U p tag as k .url

end JH.Spec
