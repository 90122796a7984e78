import Verif.Model.EngMain
import Verif.Model.Transforms
/-! The constructor `JustHTML(html, ...)` from the input to the tree (src/justhtml/parser/__init__.py): the parser engine (`Eng.result`), then the
transforms (`transform`). Errors, encodings and `track_node_locations` are elsewhere (`Errors`, `Policy.docErrors`, `Encoding`) or not modelled. -/
namespace JH

/-- transforms/spec.py, transforms/__init__.py:168-195: the transforms as the caller gives them; `sanitize` is `Sanitize()` without a policy. -/
inductive UserSpec
  | one (enabled : Bool) (t : Trans)
  | sanitize (enabled : Bool)
  | stage (enabled : Bool) (l : List UserSpec)

mutual
/-- transforms/compile.py:126-166 `_normalize_transform_policies`. -/
def bindSpec (dflt : SanCfg) : UserSpec → TransSpec
  | .one e t => .one e t
  | .sanitize e => .one e (.sanitize dflt)
  | .stage e l => .stage e (bindSpecs dflt l)
/-- The loop over a list. -/
def bindSpecs (dflt : SanCfg) : List UserSpec → List TransSpec
  | [] => []
  | s :: r => bindSpec dflt s :: bindSpecs dflt r
end

/-- Is it `Sanitize`? -/
def Trans.isSanitize : Trans → Bool
  | .sanitize _ => true
  | _ => false

/-- Is it `HardenRawtext`? -/
def Trans.isHarden : Trans → Bool
  | .hardenRawtext => true
  | _ => false

mutual
/-- transforms/compile.py:169-202 `_transform_parse_requirements(...).has_sanitize` (disabled ones count, 111-123: those in disabled stages do not). -/
def UserSpec.hasSan : UserSpec → Bool
  | .one _ t => t.isSanitize
  | .sanitize _ => true
  | .stage e l => e && hasSans l
/-- The loop over a list. -/
def hasSans : List UserSpec → Bool
  | [] => false
  | s :: r => s.hasSan || hasSans r
end

mutual
/-- The same for `has_harden_rawtext`. -/
def UserSpec.hasHarden : UserSpec → Bool
  | .one _ t => t.isHarden
  | .sanitize _ => false
  | .stage e l => e && hasHardens l
/-- The loop over a list. -/
def hasHardens : List UserSpec → Bool
  | [] => false
  | s :: r => s.hasHarden || hasHardens r
end

/-- What is parsed: a text (bytes are decoded first: `decodeHtml`), a node, or `None`. -/
inductive Source
  | text (s : Str)
  | node (n : Node)
  | nothing

/-- The arguments that matter for the tree. `fragment` is also true if a `fragment_context` is given, `ctx` and `ctxNs` are its fields; `shared` says
whether `policy` is the very object `DEFAULT_POLICY` (for fragments) or `DEFAULT_DOCUMENT_POLICY` (for documents). -/
structure Args where
  fragment : Bool := false
  ctx : Str := c%"div"
  ctxNs : Option Str := none
  scripting : Bool := true
  sanitize : Option Bool := none
  policy : Option SanCfg := none
  shared : Bool := false
  transforms : List UserSpec := []

/-- sanitizer/policy_defaults.py:44-138: the default policies. -/
def defaultCfg (fragment : Bool) : SanCfg :=
  let p := if fragment then Eng.defaultPolicy else Eng.defaultDocumentPolicy
  { allowedTags := p.allowedTags, allowedAttrs := p.allowedAttributes, dropContent := p.dropContentTags, handling := .unwrap, url := p.urlPolicy,
    cssProps := [], forceRel := [], dropComments := p.dropComments, dropDoctype := p.dropDoctype, stripInv := p.stripInvisible }

/-- parser/__init__.py:95. -/
def Args.enabled (a : Args) : Bool := a.sanitize.getD true

/-- parser/__init__.py:247, 256 (sanitizer/policy.py:415-416 `_default_policy_for_root_name`): the policy of `Sanitize()` and of the automatic step. -/
def Args.effective (a : Args) : SanCfg := a.policy.getD (defaultCfg a.fragment)

/-- parser/__init__.py:140-164: the text to parse; `none` if serializing the node raises. -/
def sourceText (U : Uni) (a : Args) : Source → Option Str
  | .text s => some s
  | .nothing => some []
  | .node n =>
    match toHtmlCompact U none (if a.enabled || hasSans a.transforms || hasHardens a.transforms then harden U n else n) with
    | .ok s => some s
    | _ => none

/-- parser/__init__.py:179-183 `use_compiled_safe_engine`. -/
def Args.compiled (a : Args) : Bool := a.enabled && a.transforms.isEmpty && (a.policy.isNone || a.shared)

/-- parser/__init__.py:226-260: the transforms that run. -/
def Args.specs (a : Args) : List TransSpec :=
  let l := bindSpecs a.effective a.transforms
  if a.enabled && !hasSans a.transforms then l ++ [.one true (.sanitize a.effective)] else l

/-- parser/__init__.py:110-213 `JustHTML(src, ...)`: the tree (`doc.root`). `none` if the input is a node that cannot be serialized. (The root is always a
document or a fragment: `result_doc`.) -/
def construct (R : TransEnv) (T : EntTables) (fuel : List Node → Nat) (a : Args) (src : Source) : Option Node :=
  match sourceText R.S.E.U a src with
  | none => none
  | some html =>
    if a.compiled then some (Eng.result (Eng.safeCfg R.S.E T a.fragment html a.ctx a.ctxNs a.scripting))
    else match Eng.result (Eng.rawCfg R.S.E T a.fragment html a.ctx a.ctxNs a.scripting) with
      | .doc kids => some (.doc (transform R fuel a.specs kids))
      | n => some n

end JH
