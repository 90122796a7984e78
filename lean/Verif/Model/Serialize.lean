import Verif.Model.Tree
import Verif.Model.StartTag

/-! Model of `_node_to_html_compact` (/repo/src/justhtml/serializer/html.py:346-421) and of `_to_text_collect`
(/repo/src/justhtml/dom/__init__.py:12-39): explicit-stack traversals. -/
namespace JH

/-- core/constants.py `VOID_ELEMENTS`. -/
def voidElements : List Str :=
  [c%"area", c%"base", c%"br", c%"col", c%"embed", c%"hr", c%"img", c%"input", c%"link", c%"meta", c%"param", c%"source",
   c%"track", c%"wbr"]

/-- Entries of the serializer's stack: a node together with what `item.parent` tells about text escaping (the parent's
name when its namespace is "html"), or an end-tag marker. -/
inductive SItem where
  | node (ctx : Option Str) (n : Node)
  | close (name : Str)

/-- `parent.name` when `parent.namespace == "html"` (serializer/html.py:157). -/
def textCtx (name : Str) (ns : Option Str) : Option Str := if ns = some c%"html" then some name else none

/-- serializer/html.py:406-419: which children an element's serialization descends into, and their text context. -/
def serKids (name : Str) (ns : Option Str) (kids : List Node) (tpl : Bool) (content : List Node) : Option Str × List Node :=
  if name = c%"template" && tpl && isHtmlNs ns then (none, content) else (textCtx name ns, kids)

/-- serializer/html.py:364-421, the `while stack` loop. The top of the stack is the head of the list; `out` is the text
appended so far. `.error` is the ValueError of `serialize_start_tag`; `.unclosed` means that `fuel` ran out
(`C12_document_order`: it never does). -/
def compactF (U : Uni) : Nat → List SItem → Str → Scan Str
  | 0, _, _ => .unclosed
  | _ + 1, [], out => .ok out
  | n + 1, .close name :: st, out => compactF U n st (out ++ (c%"</" ++ name ++ c%">"))
  | n + 1, .node ctx nd :: st, out =>
    match nd with
    | .text d => compactF U n st (if d.isEmpty then out else out ++ serializeTextFor U ctx d)
    | .comment d => compactF U n st (out ++ (c%"<!--" ++ serializeComment d ++ c%"-->"))
    | .pi d => compactF U n st (out ++ (c%"<?" ++ serializePi d ++ c%"?>"))
    | .doctype name pub sys => compactF U n st (out ++ serializeDoctype name pub sys)
    | .doc kids => compactF U n (kids.map (SItem.node none) ++ st) out
    | .elem name ns attrs kids tpl content =>
      match serializeStartTag U { htmlNs := isHtmlNs ns } name attrs with
      | none => .error
      | some tag =>
        if voidElements.contains name then compactF U n st (out ++ tag)
        else compactF U n ((serKids name ns kids tpl content).2.map (SItem.node (serKids name ns kids tpl content).1) ++
          .close name :: st) (out ++ tag)

/-- `to_html(pretty=False)` of a node whose parent has text context `ctx`. -/
def toHtmlCompact (U : Uni) (ctx : Option Str) (n : Node) : Scan Str := compactF U (2 * n.size + 1) [.node ctx n] []

/-- dom/__init__.py:12-39 `_to_text_collect`: the stack loop. `strip` is `str.strip` when `strip=True`, the identity
otherwise. -/
def collectF (strip : Str → Str) : Nat → List Node → List Str → Scan (List Str)
  | 0, _, _ => .unclosed
  | _ + 1, [], parts => .ok parts
  | n + 1, nd :: st, parts =>
    match nd with
    | .text d => collectF strip n st (if d.isEmpty || (strip d).isEmpty then parts else parts ++ [strip d])
    | .comment _ => collectF strip n st parts
    | .pi _ => collectF strip n st parts
    | .doctype _ _ _ => collectF strip n st parts
    | .doc kids => collectF strip n (kids ++ st) parts
    | .elem _ _ _ kids tpl content =>
      -- template_content is pushed first, the children on top of it
      collectF strip n (kids ++ ((if tpl then [.doc content] else []) ++ st)) parts

/-- dom/__init__.py:363-383 `to_text(separator, strip)` (with `separator_blocks_only=False`). -/
def toText (strip : Str → Str) (sep : Str) (n : Node) : Scan Str :=
  match collectF strip (2 * n.size) [n] [] with
  | .ok parts => .ok (join sep parts)
  | .unclosed => .unclosed
  | .error => .error

end JH
