import Verif.Model.Py

/-! Models of /repo/src/justhtml/sanitizer/policy.py (policy normalization, `UnsafeHandler`), of the error lists of
/repo/src/justhtml/parser/__init__.py and of the constructor's transform planning. -/
namespace JH

/-! ### Policy normalization -/

/-- sanitizer/policy.py:125-126 `_normalize_policy_name`: `str(value).strip().lower()`. -/
def normName (U : Uni) (v : Str) : Str := U.lower (stripP U.isSpace v)

/-- sanitizer/policy.py:129-130 `_normalize_policy_name_set` (a set, as the list of its members). -/
def normSet (U : Uni) (vs : List Str) : List Str := (vs.map (normName U)).filter fun n => !n.isEmpty

/-- One iteration of sanitizer/policy.py:271-282: add a normalized attribute set under a normalized key. -/
def mergeAttrs (acc : List (Str × List Str)) (key : Str) (set : List Str) : List (Str × List Str) :=
  match acc with
  | [] => [(key, set)]
  | (k, s) :: r => if k = key then (k, s ++ set) :: r else (k, s) :: mergeAttrs r key set

/-- sanitizer/policy.py:270-284: the loop over `allowed_attributes.items()`; `none` is ValueError (empty tag key). -/
def normAttrs (U : Uni) : List (Str × List Str) → List (Str × List Str) → Option (List (Str × List Str))
  | acc, [] => some acc
  | acc, (tag, attrs) :: r =>
    if (normName U tag).isEmpty then none else normAttrs U (mergeAttrs acc (normName U tag) (normSet U attrs)) r

/-- The relevant fields of a `SanitizationPolicy` after `__post_init__`. -/
structure Policy where
  allowedTags : List Str
  allowedAttributes : List (Str × List Str)
  dropContentTags : List Str
  cssProps : List Str
  forceRel : List Str
  attrsGlobal : List Str
  attrsByTag : List (Str × List Str)

/-- `dict.get(key, default)`. -/
def dictGet (d : List (Str × List Str)) (key : Str) : Option (List Str) := (d.find? fun p => p.1 = key).map Prod.snd

/-- sanitizer/policy.py:243-334 `__post_init__` (type checks omitted); `none` is ValueError. -/
def mkPolicy (U : Uni) (tags : List Str) (attrs : List (Str × List Str)) (dropTags css rel : List Str) : Option Policy :=
  match normAttrs U [] attrs with
  | none => none
  | some na =>
    if na.any (fun p => p.2.contains c%"style") && css.isEmpty then none
    else
      let global := (dictGet na c%"*").getD []
      some
        { allowedTags := normSet U tags
          allowedAttributes := na
          dropContentTags := normSet U dropTags
          cssProps := css
          forceRel := normSet U rel
          attrsGlobal := global
          attrsByTag := (na.filter fun p => p.1 ≠ c%"*").map fun p => (p.1, global ++ p.2) }

/-- transforms/compile.py:759-764: the attribute set used for an element: `allowed_by_tag.get(tag)`, otherwise the global
set. -/
def Policy.attrsFor (p : Policy) (tag : Str) : List Str := (dictGet p.attrsByTag tag).getD p.attrsGlobal

/-! ### Errors and the unsafe handler -/

/-- core/types.py `ParseError`, as far as ordering and filtering look at it. -/
structure PErr where
  code : Str
  line : Option Nat
  col : Option Nat
  security : Bool
  msg : Str
deriving DecidableEq

/-- sanitizer/policy.py:51-58, the loop of `UnsafeHandler.reset` over the shared sink: it iterates over the list while moving kept
entries to the front. `i` is the read position, `w` is `write_i`. -/
def compactLoop (errors : Array PErr) (i w : Nat) : Array PErr :=
  if h : i < errors.size then
    let e := errors[i]
    if e.security then compactLoop errors (i + 1) w
    else compactLoop (errors.setIfInBounds w e) (i + 1) (w + 1)
  else errors.take w
termination_by errors.size - i
decreasing_by
  · omega
  · rw [Array.size_setIfInBounds]; omega

/-- The modes of `unsafe_handling`. -/
inductive Mode where
  | strip
  | raise
  | collect
deriving DecidableEq

/-- sanitizer/policy.py:21-38 `UnsafeHandler`. -/
structure Handler where
  mode : Mode
  sink : Option (List PErr)
  errs : Option (List PErr)

/-- sanitizer/policy.py:40-63 `reset`. -/
def Handler.reset (h : Handler) : Handler :=
  if h.mode ≠ .collect then { h with errs := none }
  else match h.sink with
    | none => { h with errs := some [] }
    | some s => { h with sink := some (compactLoop s.toArray 0 0).toList }

/-- The finding appended by sanitizer/policy.py:98-106. -/
def finding (msg : Str) (line col : Option Nat) : PErr :=
  { code := c%"unsafe-html", line := line, col := col, security := true, msg := msg }

/-- sanitizer/policy.py:77-108 `handle`. `.error` is `raise UnsafeHtmlError(msg)`. -/
def Handler.handle (h : Handler) (msg : Str) (line col : Option Nat) : Except Str Handler :=
  match h.mode with
  | .strip => .ok h
  | .raise => .error msg
  | .collect =>
    match h.sink with
    | some s => .ok { h with sink := some (s ++ [finding msg line col]) }
    | none => .ok { h with errs := some ((h.errs.getD []) ++ [finding msg line col]) }

/-- `e.line if e.line is not None else 1_000_000_000`. -/
def posKey (o : Option Nat) : Nat := o.getD 1000000000

/-- Comparison of the sort keys of parser/__init__.py:403-411: line, column, index. -/
def errLe (a b : PErr × Nat) : Bool :=
  if posKey a.1.line ≠ posKey b.1.line then posKey a.1.line ≤ posKey b.1.line
  else if posKey a.1.col ≠ posKey b.1.col then posKey a.1.col ≤ posKey b.1.col
  else a.2 ≤ b.2

/-- parser/__init__.py:399-412 `_sorted_errors`. `sorted` is modelled by Lean's merge sort. -/
def sortedErrors (errors : List PErr) : List PErr := (errors.zipIdx.mergeSort errLe).map Prod.fst

/-- sanitizer/policy.py:60-75 `collected`: `list.sort` is stable, i.e. ties keep their order, as in `sortedErrors`. -/
def Handler.collected (h : Handler) : List PErr :=
  match h.sink with
  | some s => sortedErrors (s.filter fun e => e.security)
  | none => sortedErrors (h.errs.getD [])

/-- parser/__init__.py:66-68 `_BoundedErrorList.append`; also parser/engine.py:1452-1462, the guard of `_emit_error`. -/
def boundedAppend (max : Nat) (errors : List PErr) (e : PErr) : List PErr :=
  if errors.length < max then errors ++ [e] else errors

/-- Result of constructing a document as far as errors are concerned. -/
inductive Outcome where
  | ok (errors : List PErr)
  /-- `StrictModeError(self.errors[0])` -/
  | strictError (e : PErr)
  /-- ValueError for `max_errors < 1` -/
  | valueError

/-- parser/__init__.py:97-100, 152, 190-223: the error list of a document. `emitted` are the errors the engine reports while
parsing, in order, `found` those the transforms report afterwards. `safe` is `use_compiled_safe_engine`. The engine's own
`_max_errors` is 0 when errors are not collected (parser/engine.py:1256). -/
def docErrors (collect strict safe : Bool) (max : Nat) (emitted found : List PErr) : Outcome :=
  if max < 1 then .valueError
  else
    let should := collect || strict
    let engine := emitted.foldl (boundedAppend (if should then max else 0)) []
    let tr := if safe then [] else found.foldl (boundedAppend (max - engine.length)) []
    let errors := if safe then engine else if should then engine ++ tr else tr
    let out := if should then sortedErrors errors else errors
    match strict, out with
    | true, e :: _ => .strictError e
    | _, _ => .ok out

/-! ### Transform planning -/

/-- The constructor's `transforms` argument (transforms/spec.py): stages, sanitize steps with an optional policy (named by a
number), and any other transform. -/
inductive TSpec where
  | stage (enabled : Bool) (items : List TSpec)
  | sanitize (enabled : Bool) (policy : Option Nat)
  | other (enabled : Bool) (id : Nat)

mutual
/-- transforms/compile.py:111-123 `_iter_flattened_transforms`. -/
def flatten1 : TSpec → List TSpec
  | .stage enabled items => if enabled then flattenL items else []
  | .sanitize e p => [.sanitize e p]
  | .other e i => [.other e i]
/-- The loop over a list. -/
def flattenL : List TSpec → List TSpec
  | [] => []
  | t :: ts => flatten1 t ++ flattenL ts
end

/-- Is it a `Sanitize` transform? (enabled or not) -/
def isSanitize : TSpec → Bool
  | .sanitize _ _ => true
  | _ => false

/-- transforms/compile.py:169-202 `_transform_parse_requirements(...).has_sanitize`. -/
def hasSanitize (ts : List TSpec) : Bool := (flattenL ts).any isSanitize

mutual
/-- transforms/compile.py:126-166 `_normalize_transform_policies`. -/
def bindPolicy1 (dflt : Nat) : TSpec → TSpec
  | .stage e items => .stage e (bindPolicyL dflt items)
  | .sanitize e none => .sanitize e (some dflt)
  | .sanitize e (some p) => .sanitize e (some p)
  | .other e i => .other e i
/-- The loop over a list. -/
def bindPolicyL (dflt : Nat) : List TSpec → List TSpec
  | [] => []
  | t :: ts => bindPolicy1 dflt t :: bindPolicyL dflt ts
end

/-- What the constructor does to the tree: the default engine sanitizes while parsing, or the compiled transforms run. A
sanitize step is `some policy`, any other transform `none`. -/
inductive Plan where
  | safeEngine
  | steps (l : List (Option Nat))

/-- `enabled` transforms of the flattened list, in order (transforms/compile.py:1306-1360: with or without stages, `compile_transforms`
lowers exactly the enabled transforms of the flattened list, in order). -/
def runSteps (ts : List TSpec) : List (Option Nat) :=
  (flattenL ts).filterMap fun
    | .sanitize true p => some p
    | .other true _ => some none
    | _ => none

/-- parser/__init__.py:95, 110-124, 190-200 and 226-260: which transforms run. `policy` is the constructor's policy, `dflt`
the default policy for the root, `compilable` says whether the engine can compile the policy. -/
def plan (sanitize : Option Bool) (policy : Option Nat) (compilable : Bool) (dflt : Nat) (transforms : List TSpec) : Plan :=
  let enabled := sanitize.getD true
  if enabled && transforms.isEmpty && (policy.isNone || compilable) then .safeEngine
  else if transforms.isEmpty && !enabled then .steps []
  else
    let final := bindPolicyL (policy.getD dflt) transforms
    .steps (runSteps (if enabled && !hasSanitize transforms then final ++ [.sanitize true (some (policy.getD dflt))] else final))

end JH
