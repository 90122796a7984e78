import Verif.Model.Tree
import Verif.Model.TextOps

/-! Specification for C73: what pretty printing may change. -/
namespace JH.Spec

/-- The words of a text: `text.split()`, the maximal runs of characters that are not white space (`sp`). -/
def wordsOf (sp : Char → Bool) (d : Str) : List Str := splitWs sp [] d

/-- The elements whose white space matters. -/
def preformatted : List Str := [c%"pre", c%"code", c%"textarea", c%"script", c%"style"]

/-- `Reformatted sp a b`: the siblings `b` are the siblings `a` laid out differently. Comments, processing instructions, doctypes,
and elements with their names and attributes stay as they are, in the same order; preformatted elements stay as they are with all their
content; and a run of zero or more texts may be replaced by one text with the same words. Nested fragments are inlined. -/
inductive Reformatted (sp : Char → Bool) : List Node → List Node → Prop
  | nil : Reformatted sp [] []
  | text (ds : List Str) (d : Str) (a b : List Node) (hw : wordsOf sp ds.flatten = wordsOf sp d) (h : Reformatted sp a b) :
      Reformatted sp (ds.map Node.text ++ a) (.text d :: b)
  | comment (d : Str) (a b : List Node) (h : Reformatted sp a b) : Reformatted sp (.comment d :: a) (.comment d :: b)
  | pi (d : Str) (a b : List Node) (h : Reformatted sp a b) : Reformatted sp (.pi d :: a) (.pi d :: b)
  | doctype (name : Str) (pub sys : Option Str) (a b : List Node) (h : Reformatted sp a b) :
      Reformatted sp (.doctype name pub sys :: a) (.doctype name pub sys :: b)
  | fragment (kids ks a b : List Node) (hk : Reformatted sp kids ks) (h : Reformatted sp a b) :
      Reformatted sp (.doc kids :: a) (ks ++ b)
  | keep (name : Str) (ns : Option Str) (attrs : List (Str × Option Str)) (kids : List Node) (tpl : Bool) (content : List Node)
      (a b : List Node) (h : Reformatted sp a b) :
      Reformatted sp (.elem name ns attrs kids tpl content :: a) (.elem name ns attrs kids tpl content :: b)
  | elem (name : Str) (ns : Option Str) (attrs : List (Str × Option Str)) (kids kids' : List Node) (tpl : Bool) (content : List Node)
      (a b : List Node) (hn : name ∉ preformatted) (hk : Reformatted sp kids kids') (h : Reformatted sp a b) :
      Reformatted sp (.elem name ns attrs kids tpl content :: a) (.elem name ns attrs kids' tpl content :: b)
  | template (name : Str) (ns : Option Str) (attrs : List (Str × Option Str)) (kids content content' : List Node)
      (a b : List Node) (hn : name ∉ preformatted) (hc : Reformatted sp content content') (h : Reformatted sp a b) :
      Reformatted sp (.elem name ns attrs kids true content :: a) (.elem name ns attrs kids true content' :: b)

mutual
/-- Raw text elements (`iframe`, `noembed`, `noframes`, `plaintext`, `xmp`, ...) contain only text and scripts are named `script`,
as in every parsed document. -/
def RawIsText (U : Uni) : Node → Prop
  | .elem name ns _ kids _ content =>
    ((ns = some c%"html" ∧ U.lower name ∈ [c%"iframe", c%"noembed", c%"noframes", c%"plaintext", c%"script", c%"style", c%"xmp"]) →
      (∀ k ∈ kids, ∃ d, k = .text d) ∧ (U.lower name = c%"script" → name = c%"script")) ∧ RawIsTextL U kids ∧ RawIsTextL U content
  | .doc kids => RawIsTextL U kids
  | .text _ => True
  | .comment _ => True
  | .pi _ => True
  | .doctype _ _ _ => True
/-- Every node of the list. -/
def RawIsTextL (U : Uni) : List Node → Prop
  | [] => True
  | n :: ns => RawIsText U n ∧ RawIsTextL U ns
end

end JH.Spec
