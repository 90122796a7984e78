import Verif.Model.Construct
import Verif.Model.BlockText
import Verif.Model.Markdown
import Verif.Model.Pretty
/-! The command line `justhtml` (src/justhtml/__main__.py), after the arguments have been read by `argparse` and the input has been read and decoded. -/
namespace JH

/-- __main__.py:63-68 `--format`. -/
inductive OutFormat
  | html
  | text
  | markdown

/-- __main__.py:54-129: the options. `output`, `allowTags` and `selector` are empty if they are not given (they are tested for truth). -/
structure CliArgs where
  output : Str := []
  selector : Str := []
  format : OutFormat := .html
  unsafe_ : Bool := false
  allowTags : Str := []
  cleanup : Bool := false
  first : Bool := false
  fragment : Bool := false
  strict : Bool := false
  separator : Str := c%" "
  blocksOnly : Bool := false
  strip : Bool := true

/-- What the command uses: `query root s` is `doc.query(s)` (selectors over the heap: `SelMatch`), `none` for a `SelectorError`, with its message;
`errors` is the message of the first error that a strict parse reports. -/
structure CliEnv where
  R : TransEnv
  T : EntTables
  fuel : List Node → Nat
  query : Node → Str → Except Str (List Node)
  errors : Args → Str → Option Str

/-- How a run ends: with an exit code and a message, or (exit code 0) with text written to a file or to the standard output, or with an exception. -/
inductive CliEnd
  | exit (code : Nat) (message : Str)
  | wrote (dest : Option Str) (text : Str)
  | raised

/-- __main__.py:160-164: the tags of `--allow-tags`. -/
def extraTags (U : Uni) (s : Str) : List Str :=
  ((splitC ',' (s.map fun c => if c = ' ' then ',' else c)).map fun p => U.lower (stripP U.isSpace p)).filter fun t => !t.isEmpty

/-- __main__.py:156-180: `--allow-tags` (the other fields are those of the default policy; `strip_invisible_unicode` is true by default). -/
def cliPolicy (U : Uni) (a : CliArgs) : Option SanCfg :=
  if !a.unsafe_ && !a.allowTags.isEmpty then some { defaultCfg a.fragment with allowedTags := (defaultCfg a.fragment).allowedTags ++ extraTags U a.allowTags }
  else none

/-- __main__.py:182-199: `--cleanup`. -/
def cliTransforms (U : Uni) (a : CliArgs) : List UserSpec :=
  if a.cleanup then
    (if a.unsafe_ then [] else [.one true (.sanitize ((cliPolicy U a).getD (defaultCfg a.fragment)))]) ++
      [.one true (.unwrap c%"a:not([href])"), .one true (.drop c%"img:not([src]), img[src=\"\"]"), .one true (.pruneEmpty c%"*" true)]
  else []

/-- __main__.py:202-209: the call of the constructor. -/
def cliCall (U : Uni) (a : CliArgs) : Args :=
  { fragment := a.fragment, sanitize := some (!a.unsafe_), policy := cliPolicy U a, transforms := cliTransforms U a }

/-- __main__.py:232-278: one node; `none` if rendering raises. -/
def cliRender (U : Uni) (a : CliArgs) (n : Node) : Option Str :=
  match a.format with
  | .html =>
    match n with
    | .doc kids => toHtmlPrettyDoc U 2 0 kids
    | n => toHtmlPretty U 2 none 0 n
  | .text =>
    match toTextCall U a.separator a.strip a.blocksOnly n with
    | .ok s => some s
    | _ => none
  | .markdown => some (toMarkdown U (fun m => match toHtmlCompact U none m with | .ok s => s | _ => []) false n)

/-- All the nodes; `none` if one of them raises. -/
def renderAll (U : Uni) (a : CliArgs) : List Node → Option (List Str)
  | [] => some []
  | n :: r => match cliRender U a n, renderAll U a r with
    | some s, some l => some (s :: l)
    | _, _ => none

/-- __main__.py:235, 272, 277: what is between two nodes. -/
def cliGlue : OutFormat → Str
  | .markdown => c%"\n\n"
  | _ => c%"\n"

/-- __main__.py:214-230: the nodes to print, or how the run ends. -/
def cliNodes (V : CliEnv) (a : CliArgs) (root : Node) : Except (Nat × Str) (List Node) :=
  match (if a.selector.isEmpty then .ok [root] else V.query root a.selector : Except Str (List Node)) with
  | .error e => .error (2, e)
  | .ok [] => .error (1, [])
  | .ok (n :: r) => .ok (if a.first then [n] else n :: r)

/-- __main__.py:149-285 `main`. -/
def cliMain (V : CliEnv) (a : CliArgs) (html : Str) : CliEnd :=
  let call := cliCall V.R.S.E.U a
  match (if a.strict then V.errors call html else none) with
  | some e => .exit 2 e
  | none =>
    match construct V.R V.T V.fuel call (.text html) with
    | none => .raised
    | some root =>
      match cliNodes V a root with
      | .error (code, e) => .exit code e
      | .ok nodes =>
        match renderAll V.R.S.E.U a nodes with
        | none => .raised
        | some outs => .wrote (if a.output.isEmpty then none else some a.output) (join (cliGlue a.format) outs ++ c%"\n")

end JH
