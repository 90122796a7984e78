import Verif.Model.Sanitize
import Verif.Model.Policy
/-! Model of a policy object that is used several times and edited in between: the plan cache of `SanitizationPolicy.compile`
(/repo/src/justhtml/sanitizer/policy.py:344-416) and what a plan copies from the policy (transforms/compile.py:280-436).

The collections of a policy (`allowed_attributes`, `drop_content_tags`, `allowed_css_properties`, `force_link_rel` and the rules of
`url_policy`) are ordinary dicts and sets that a caller can change; the other fields are immutable. A Python set is modelled as the list of
its members, a dict as the list of its items (keys are distinct). -/
namespace JH

/-- Comparison of two Python strings: by code points. -/
def strLe : Str → Str → Bool
  | [], _ => true
  | _ :: _, [] => false
  | a :: s, b :: t => a.toNat < b.toNat || (a.toNat = b.toNat && strLe s t)

/-- Comparison of two tuples of strings. -/
def tupleLe : List Str → List Str → Bool
  | [], _ => true
  | _ :: _, [] => false
  | a :: s, b :: t => if a = b then tupleLe s t else strLe a b

/-- Insert into a sorted list. -/
def insertBy {α : Type} (le : α → α → Bool) (x : α) : List α → List α
  | [] => [x]
  | y :: ys => if le x y then x :: y :: ys else y :: insertBy le x ys

/-- Python's `sorted`, as insertion sort. -/
def sortBy {α : Type} (le : α → α → Bool) : List α → List α
  | [] => []
  | x :: xs => insertBy le x (sortBy le xs)

/-- `tuple(sorted(str(x).lower() for x in xs))` (sanitizer/policy.py:389-402). -/
def lowSig (U : Uni) (xs : List Str) : List Str := sortBy strLe (xs.map U.lower)

/-- One item of `allowed_attributes_sig` (sanitizer/policy.py:381-384). -/
def itemSig (U : Uni) (p : Str × List Str) : Str × List Str := (U.lower p.1, lowSig U p.2)

/-- Comparison of two such items (tuples). -/
def itemLe (p q : Str × List Str) : Bool := if p.1 = q.1 then tupleLe p.2 q.2 else strLe p.1 q.1

/-- sanitizer/policy.py:377-404 `_sanitization_policy_signature`; `selector_limits` is immutable and left out. `σ` is the type of
`_url_policy_signature`. -/
structure PolSig (σ : Type) where
  tags : List Str
  attrs : List (Str × List Str)
  drop : List Str
  css : List Str
  rel : List Str
  handling : TagHandling
  strip : Bool
  url : σ
deriving DecidableEq

/-- sanitizer/policy.py:377-404; `us` is `_url_policy_signature` (sanitizer/url/policy.py:115-152), which may be any function here. -/
def polSig {σ : Type} (U : Uni) (us : UrlPolicy → σ) (C : SanCfg) : PolSig σ where
  tags := lowSig U C.allowedTags
  attrs := sortBy itemLe (C.allowedAttrs.map (itemSig U))
  drop := lowSig U C.dropContent
  css := lowSig U C.cssProps
  rel := lowSig U C.forceRel
  handling := C.handling
  strip := C.stripInv
  url := us C.url

/-- `tuple(sorted({str(p).strip().lower() for p in ps if str(p).strip()}))` (transforms/spec.py:603 and 634). -/
def nameTuple (U : Uni) (ps : List Str) : List Str := sortBy strLe (normSet U ps).eraseDups

/-- transforms/spec.py:524-549 `AllowlistAttrs`: attribute names are lower-cased, tag keys are not. -/
def lowerAttrs (U : Uni) (attrs : List (Str × List Str)) : List (Str × List Str) := attrs.map fun p => (p.1, p.2.map U.lower)

/-- transforms/compile.py:280-436 `_compile_sanitize_transform`: the values that the compiled transforms keep. Style checking is switched on
when the *set* of properties is not empty (transforms/compile.py:389), even if the tuple is: then no declaration is allowed, which
`[[]]` (the empty property name) stands for. The `url` field is not used: the transforms keep a reference to the live URL policy. -/
def snapshot (U : Uni) (C : SanCfg) : SanCfg where
  allowedTags := C.allowedTags
  allowedAttrs := lowerAttrs U (effAttrs C)
  dropContent := C.dropContent
  handling := C.handling
  url := C.url
  cssProps := if C.cssProps.isEmpty then [] else if (nameTuple U C.cssProps).isEmpty then [[]] else nameTuple U C.cssProps
  forceRel := nameTuple U C.forceRel
  dropComments := C.dropComments
  dropDoctype := C.dropDoctype
  stripInv := C.stripInv

/-- A policy object: its fields and `_compiled_sanitize_policy`. -/
structure PolObj (σ : Type) where
  cfg : SanCfg
  cache : Option (PolSig σ × SanCfg)

/-- sanitizer/policy.py:357-374 `_compiled_sanitization_policy_for_policy`. -/
def PolObj.compile {σ : Type} [DecidableEq σ] (U : Uni) (us : UrlPolicy → σ) (P : PolObj σ) : PolObj σ × SanCfg :=
  match P.cache with
  | some (sig, plan) =>
    if sig = polSig U us P.cfg then (P, plan)
    else ({ P with cache := some (polSig U us P.cfg, snapshot U P.cfg) }, snapshot U P.cfg)
  | none => ({ P with cache := some (polSig U us P.cfg, snapshot U P.cfg) }, snapshot U P.cfg)

/-- sanitizer/dom.py:92-114 `sanitize_dom` (also parser/__init__.py:288-298): compile, then apply. The URL policy is the live one. -/
def PolObj.sanitize {σ : Type} [DecidableEq σ] (S : SanEnv) (us : UrlPolicy → σ) (P : PolObj σ) (n : Node) : PolObj σ × Node :=
  let r := P.compile S.E.U us
  (r.1, sanitizeRoot S { r.2 with url := r.1.cfg.url } n)

/-- The collections of a policy that a caller can edit. -/
structure Colls where
  attrs : List (Str × List Str)
  drop : List Str
  css : List Str
  rel : List Str
  url : UrlPolicy

/-- The fields after an edit. -/
def SanCfg.edit (C : SanCfg) (e : Colls) : SanCfg :=
  { C with allowedAttrs := e.attrs, dropContent := e.drop, cssProps := e.css, forceRel := e.rel, url := e.url }

/-- What a program does with a policy object. -/
inductive PolOp where
  | edit (e : Colls)
  | sanitize (n : Node)

/-- A history: the documents that the calls return. -/
def PolObj.run {σ : Type} [DecidableEq σ] (S : SanEnv) (us : UrlPolicy → σ) : PolObj σ → List PolOp → List Node
  | _, [] => []
  | P, .edit e :: ops => PolObj.run S us { P with cfg := P.cfg.edit e } ops
  | P, .sanitize n :: ops => (P.sanitize S us n).2 :: PolObj.run S us (P.sanitize S us n).1 ops

/-- The constructor (sanitizer/policy.py:243-334) applied to given field values; `none` is ValueError. -/
def newPolicy {σ : Type} (U : Uni) (C : SanCfg) : Option (PolObj σ) :=
  (mkPolicy U C.allowedTags C.allowedAttrs C.dropContent C.cssProps C.forceRel).map fun p =>
    { cfg := { C with allowedTags := p.allowedTags, allowedAttrs := p.allowedAttributes, dropContent := p.dropContentTags, cssProps := p.cssProps, forceRel := p.forceRel }
      cache := none }

end JH
