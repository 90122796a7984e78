import Verif.Model.Serialize

/-! Model of /repo/src/justhtml/dom/builder.py: `element`, `text`, `comment` and `doctype`. Strings are strings (a wrong type raises at once); values of
attributes have been through `str`. Every raised exception is `error`. -/
namespace JH

/-- dom/builder.py:11 `_SPECIAL_NODE_NAMES`. -/
def specialNames : List Str := [c%"#text", c%"#comment", c%"#document", c%"#document-fragment", c%"!doctype"]

/-- dom/builder.py:212-263: one attribute, after its `[`, and the text after its `]`. -/
def shortAttr (s : Str) : Option ((Str × Option Str) × Str) :=
  let name := s.takeWhile fun c => !(c = '=' || c = ']')
  match s.dropWhile fun c => !(c = '=' || c = ']') with
  | [] => none
  | d :: r =>
    if !validAttrName name then none
    else if d = ']' then some ((name, none), r)
    else
      match r with
      | [] => none
      | q :: r' =>
        if q = '"' || q = '\'' then
          if (r'.takeWhile fun c => c ≠ q).contains '\\' then none
          else
            match r'.dropWhile fun c => c ≠ q with
            | _ :: ']' :: r'' => some ((name, some (r'.takeWhile fun c => c ≠ q)), r'')
            | _ => none
        else
          if (r.takeWhile fun c => c ≠ ']').contains '[' then none
          else
            match r.dropWhile fun c => c ≠ ']' with
            | _ :: r'' => some ((name, some (r.takeWhile fun c => c ≠ ']')), r'')
            | [] => none

/-- dom/builder.py:207-264: all attributes. Each takes at least one character, so the length of the text is fuel enough. -/
def shortAttrsF : Nat → Str → List (Str × Option Str) → Option (List (Str × Option Str))
  | _, [], acc => some acc
  | 0, _ :: _, _ => none
  | n + 1, c :: r, acc =>
    if c ≠ '[' then none
    else
      match shortAttr r with
      | none => none
      | some (a, r') => if acc.any fun x => x.1 = a.1 then none else shortAttrsF n r' (acc ++ [a])

/-- dom/builder.py:185-266 `_parse_element_name`. -/
def parseElementName (U : Uni) (value : Str) : Option (Str × List (Str × Option Str)) :=
  let tag := value.takeWhile fun c => c ≠ '['
  let rest := value.dropWhile fun c => c ≠ '['
  if tag.isEmpty || tag.any U.isSpace || !(specialNames.contains tag || validTagName tag) then none
  else (shortAttrsF rest.length rest []).map fun as => (tag, as)

/-- What a program may pass as a child. `bad` is everything that is refused: mappings, bytes, numbers, objects that cannot be iterated over. -/
inductive Child where
  | none
  | bool (b : Bool)
  | str (s : Str)
  | node (n : Node)
  | iter (l : List Child)
  | bad

mutual
/-- How many steps the loop makes for a child. -/
def Child.size : Child → Nat
  | .iter l => 1 + Child.sizeL l
  | _ => 1
/-- How many steps the loop makes for some children. -/
def Child.sizeL : List Child → Nat
  | [] => 0
  | c :: l => Child.size c + Child.sizeL l
end

/-- dom/builder.py:140-182 `_flatten_children`: the loop; the top of the stack is the head of the list. -/
def flattenF : Nat → List Child → List Node → Scan (List Node)
  | _, [], out => .ok out
  | 0, _ :: _, _ => .unclosed
  | n + 1, c :: st, out =>
    match c with
    | .none => flattenF n st out
    | .bool b => if b then .error else flattenF n st out
    | .str s => flattenF n st (out ++ [.text s])
    | .node x => flattenF n st (out ++ [x])
    | .iter l => flattenF n (l ++ st) out
    | .bad => .error

/-- dom/builder.py:140-182 `_flatten_children`. -/
def flattenChildren (l : List Child) : Scan (List Node) := flattenF (Child.sizeL l) l []

/-- The second argument of `element`: `None`, a mapping, or else a first child. -/
inductive AttrsArg where
  | none
  | mapping (l : List (Str × Option Str))
  | child (c : Child)

/-- dom/builder.py:107-121 `_normalize_attrs`. The keys of a mapping are distinct. -/
def normAttrsArg (l : List (Str × Option Str)) : Option (List (Str × Option Str)) :=
  if l.all fun a => validAttrName a.1 then some l else none

/-- dom/builder.py:124-137 `_normalize_namespace`. -/
def normNs (U : Uni) : Option Str → Option Str
  | .none => some c%"html"
  | .some ns =>
    let n := if U.lower ns = c%"mathml" then c%"math" else U.lower ns
    if [c%"html", c%"svg", c%"math"].contains n then some n else .none

/-- dom/builder.py:65-104 `element`. Simplification: the child nodes are trees of their own, so that no node is moved away from elsewhere. -/
def buildElement (U : Uni) (name : Str) (attrs : AttrsArg) (children : List Child) (ns : Option Str := some c%"html") : Scan Node :=
  match normNs U ns with
  | none => .error
  | some ns =>
    let kids := match attrs with | .child c => c :: children | _ => children
    let given := match attrs with | .mapping l => l | _ => []
    match parseElementName U name with
    | none => .error
    | some (tag, short) =>
      if specialNames.contains tag then .error
      else
        match normAttrsArg given with
        | none => .error
        | some given =>
          if short.any fun a => given.any fun b => a.1 = b.1 then .error
          else
            match flattenChildren kids with
            | .ok l => .ok (if tag = c%"template" && ns = c%"html" then .elem tag (some ns) (short ++ given) [] true l else .elem tag (some ns) (short ++ given) l false [])
            | .unclosed => .unclosed
            | .error => .error

/-- dom/builder.py:27-47 `doctype`. -/
def buildDoctype (name : Str) (pub sys : Option Str) : Option Node :=
  if !name.isEmpty && !validTagName name then none else some (.doctype name pub sys)

end JH
