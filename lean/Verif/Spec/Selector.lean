import Verif.Model.SelParse
import Verif.Spec.Dom
/-! What selectors mean: a relation between nodes and syntax trees, by recursion on the tree, as in the CSS Selectors specification. No caches, budgets,
indexes or traversals. A node counts as an element when its name does not start with `#`, as in the code. -/
namespace JH.Spec

/-- An element. -/
def Elem (h : Heap) (n : Nat) : Prop := (h.obj n).name.head? ≠ some '#'

instance (h : Heap) : DecidablePred (Elem h) := fun n => by unfold Elem; infer_instance

/-- `x` is an earlier sibling of `y`. -/
def Earlier (h : Heap) (x y : Nat) : Prop := ∃ p a b c, (h.obj p).children = some (a ++ x :: b ++ y :: c)

/-- `n` is a child of some node. -/
def IsChild (h : Heap) (n : Nat) : Prop := ∃ p l, (h.obj p).children = some l ∧ n ∈ l

/-- `n` is the `i`-th among its siblings that satisfy `P`. -/
def Position (h : Heap) (P : Nat → Prop) [DecidablePred P] (n i : Nat) : Prop :=
  ∃ p a b, (h.obj p).children = some (a ++ n :: b) ∧ i = (a.filter fun x => P x).length + 1

/-- An element with the same tag name as `n`, up to case. -/
def SameType (U : Uni) (h : Heap) (n x : Nat) : Prop := Elem h x ∧ U.lower (h.obj x).name = U.lower (h.obj n).name

instance (U : Uni) (h : Heap) (n : Nat) : DecidablePred (SameType U h n) := fun x => by unfold SameType; infer_instance

/-- The value of the attribute with the lower-case name `name`: the last one if there are several. -/
def AttrIs (U : Uni) (h : Heap) (n : Nat) (name v : Str) : Prop :=
  ∃ d a k x b, (h.obj n).attrs = some d ∧ h.dict d = a ++ (k, x) :: b ∧ U.lower k = name ∧ v = x.getD [] ∧ ∀ q ∈ b, U.lower q.1 ≠ name

/-- `w` is one of the words of `v`, which are separated by white space. -/
def Word (U : Uni) (w v : Str) : Prop :=
  w ≠ [] ∧ (∀ c ∈ w, U.isSpace c = false) ∧
    ∃ a b, v = a ++ w ++ b ∧ (∀ c, a.getLast? = some c → U.isSpace c = true) ∧ (∀ c, b.head? = some c → U.isSpace c = true)

/-- The attribute operators. -/
def OpHolds (U : Uni) (op v w : Str) : Prop :=
  (op = c%"=" ∧ v = w) ∨ (op = c%"~=" ∧ Word U w v) ∨ (op = c%"|=" ∧ (v = w ∨ w ++ c%"-" <+: v)) ∨ (op = c%"^=" ∧ w ≠ [] ∧ w <+: v) ∨
    (op = c%"$=" ∧ w ≠ [] ∧ w <:+ v) ∨ (op = c%"*=" ∧ w ≠ [] ∧ w <:+: v)

mutual
/-- The text of a tree: the texts of the text nodes without white space at their ends, separated by spaces. -/
def treeText (U : Uni) : Tree → Str
  | .mk l cs ct => if l.name = c%"#text" then stripP U.isSpace (l.data.getD []) else join c%" " (treeTexts U cs ++ treeTexts U ct)
/-- The texts that are not empty. -/
def treeTexts (U : Uni) : List Tree → List Str
  | [] => []
  | t :: ts => if treeText U t = [] then treeTexts U ts else treeText U t :: treeTexts U ts
end

/-- `An+B` holds for the position of `n` among the siblings that satisfy `P`. -/
def NthOf (U : Uni) (h : Heap) (P : Nat → Prop) [DecidablePred P] (n : Nat) (arg : Option Str) : Prop :=
  ∃ a b i, parseNth U arg = some (a, b) ∧ Position h P n i ∧ ∃ k : Nat, (i : Int) = a * k + b

def FirstChild (h : Heap) (n : Nat) : Prop := Elem h n ∧ IsChild h n ∧ ∀ x, Earlier h x n → ¬ Elem h x
def LastChild (h : Heap) (n : Nat) : Prop := Elem h n ∧ IsChild h n ∧ ∀ x, Earlier h n x → ¬ Elem h x
def FirstOfType (U : Uni) (h : Heap) (n : Nat) : Prop := Elem h n ∧ IsChild h n ∧ ∀ x, Earlier h x n → ¬ SameType U h n x
def LastOfType (U : Uni) (h : Heap) (n : Nat) : Prop := Elem h n ∧ IsChild h n ∧ ∀ x, Earlier h n x → ¬ SameType U h n x

/-- No element and no text other than white space inside. -/
def Hollow (U : Uni) (h : Heap) (n : Nat) : Prop :=
  ∀ l x, (h.obj n).children = some l → x ∈ l → ¬ Elem h x ∧ ((h.obj x).name = c%"#text" → ∀ s, (h.obj x).data = some s → ∀ c ∈ s, U.isSpace c = true)

def IsRoot (h : Heap) (n : Nat) : Prop := ∃ p, (h.obj n).parent = some p ∧ ((h.obj p).name = c%"#document" ∨ (h.obj p).name = c%"#document-fragment")

/-- The text below `n` contains the argument of `:contains`. -/
def Contains (U : Uni) (h : Heap) (n : Nat) (needle : Str) : Prop := needle = [] ∨ ∃ t, Reads h n t ∧ needle <:+: treeText U t

/-- The pseudo-classes. `arg` is the argument, `needle` its unquoted form, `inner` whether `n` matches the selector in the argument. -/
def PseudoHolds (U : Uni) (h : Heap) (n : Nat) (name : Str) (arg : Option Str) (needle : Str) (inner : Prop) : Prop :=
  (name = c%"first-child" ∧ FirstChild h n) ∨ (name = c%"last-child" ∧ LastChild h n) ∨ (name = c%"only-child" ∧ FirstChild h n ∧ LastChild h n) ∨
  (name = c%"first-of-type" ∧ FirstOfType U h n) ∨ (name = c%"last-of-type" ∧ LastOfType U h n) ∨
  (name = c%"only-of-type" ∧ FirstOfType U h n ∧ LastOfType U h n) ∨
  (name = c%"nth-child" ∧ Elem h n ∧ NthOf U h (Elem h) n arg) ∨ (name = c%"nth-of-type" ∧ Elem h n ∧ NthOf U h (SameType U h n) n arg) ∨
  (name = c%"empty" ∧ Hollow U h n) ∨ (name = c%"root" ∧ IsRoot h n) ∨ (name = c%"comment" ∧ (h.obj n).name = c%"#comment") ∨
  (name = c%"contains" ∧ arg ≠ none ∧ Contains U h n needle) ∨ (name = c%"not" ∧ (arg.getD [] = [] ∨ ¬ inner))

/-- What stands to the left of a combinator, relative to what stands to its right. -/
def Related (h : Heap) : Comb → Nat → Nat → Prop
  | .desc, m, n => Above h m n
  | .child, m, n => (h.obj n).parent = some m
  | .adj, m, n => Elem h m ∧ ∃ p a b c, (h.obj p).children = some (a ++ m :: b ++ n :: c) ∧ ∀ x ∈ b, ¬ Elem h x
  | .sib, m, n => Elem h m ∧ Earlier h m n

mutual
/-- `n` matches a simple selector; `unq` removes the quotes of an argument. -/
def satSimple (U : Uni) (unq : Str → Str) (h : Heap) : Simple → Nat → Prop
  | .universal, n => Elem h n
  | .tag t, n => Elem h n ∧ ((h.obj n).name = t ∨ U.lower (h.obj n).name = t)
  | .id i, n => Elem h n ∧ ∃ d a b, (h.obj n).attrs = some d ∧ h.dict d = a ++ (c%"id", some i) :: b ∧ ∀ q ∈ a, q.1 ≠ c%"id"
  | .cls c, n => Elem h n ∧ ∃ v, AttrIs U h n c%"class" v ∧ Word U c v
  | .attr a op, n => Elem h n ∧ ∃ v, AttrIs U h n a v ∧ ∀ o w, op = some (o, w) → OpHolds U o v w
  | .pseudo name arg inner, n => PseudoHolds U h n name arg (unq (arg.getD [])) (satSel U unq h inner n)
/-- All simple selectors of a compound. -/
def satSimples (U : Uni) (unq : Str → Str) (h : Heap) : List Simple → Nat → Prop
  | [], _ => True
  | s :: ss, n => satSimple U unq h s n ∧ satSimples U unq h ss n
def satCompound (U : Uni) (unq : Str → Str) (h : Heap) : Compound → Nat → Prop
  | .mk _ l, n => satSimples U unq h l n
/-- Some node on the left of each combinator matches what stands there. -/
def satComplex (U : Uni) (unq : Str → Str) (h : Heap) : Complex → Nat → Prop
  | .one c, n => satCompound U unq h c n
  | .comb left op c, n => satCompound U unq h c n ∧ ∃ m, Related h op m n ∧ satComplex U unq h left m
/-- Some selector of the list. -/
def satSel (U : Uni) (unq : Str → Str) (h : Heap) : List Complex → Nat → Prop
  | [], _ => False
  | x :: xs, n => satComplex U unq h x n ∨ satSel U unq h xs n
end

/-! ### Selectors for which no choice has to be undone -/

/-- The combinator before the last part. -/
def lastComb : Complex → Option Comb
  | .one _ => none
  | .comb _ op _ => some op

/-- What stands to the left of `op` starts with a combinator for which the closest candidate is as good as any other: ancestors of an ancestor are
ancestors, and siblings share their parent and their ancestors. -/
def Forward (left : Complex) (op : Comb) : Prop :=
  (op = .desc → ∀ o, lastComb left = some o → o = .desc) ∧ (op = .sib → ∀ o, lastComb left = some o → o ≠ .adj)

mutual
/-- Every part of the selector, also inside `:not`, is `Forward`, and no node matches both sides of a descendant combinator. -/
def plainSimple (U : Uni) (unq : Str → Str) (h : Heap) : Simple → Prop
  | .pseudo _ _ inner => plainSel U unq h inner
  | _ => True
def plainSimples (U : Uni) (unq : Str → Str) (h : Heap) : List Simple → Prop
  | [] => True
  | s :: ss => plainSimple U unq h s ∧ plainSimples U unq h ss
def plainCompound (U : Uni) (unq : Str → Str) (h : Heap) : Compound → Prop
  | .mk _ l => plainSimples U unq h l
def plainComplex (U : Uni) (unq : Str → Str) (h : Heap) : Complex → Prop
  | .one c => plainCompound U unq h c
  | .comb left op c => plainComplex U unq h left ∧ plainCompound U unq h c ∧ Forward left op ∧
      (op = .desc → ∀ n, ¬ (satCompound U unq h left.last n ∧ satCompound U unq h c n))
def plainSel (U : Uni) (unq : Str → Str) (h : Heap) : List Complex → Prop
  | [] => True
  | x :: xs => plainComplex U unq h x ∧ plainSel U unq h xs
end

/-- The same inside `:not` only. -/
def plainInside (U : Uni) (unq : Str → Str) (h : Heap) : Complex → Prop
  | .one c => plainCompound U unq h c
  | .comb left _ c => plainInside U unq h left ∧ plainCompound U unq h c

/-- `Forward` at the top. -/
def forwardChain : Complex → Prop
  | .one _ => True
  | .comb left op _ => forwardChain left ∧ Forward left op

end JH.Spec

namespace JH.Spec

/-! ### The parts of a selector -/

/-- `c` is one of the compounds joined by combinators in `x`. -/
inductive PartOf : Compound → Complex → Prop
  | one {c : Compound} : PartOf c (.one c)
  | last {l : Complex} {o : Comb} {c : Compound} : PartOf c (.comb l o c)
  | left {l : Complex} {o : Comb} {c d : Compound} : PartOf d l → PartOf d (.comb l o c)

/-- `t` is `sel` or stands in an argument of a pseudo-class somewhere in it, `k` levels down. -/
inductive Nested : Nat → Sel → Sel → Prop
  | here {sel : Sel} : Nested 0 sel sel
  | down {k : Nat} {t sel i : Sel} {x : Complex} {c : Compound} {name : Str} {arg : Option Str} :
      x ∈ sel → PartOf c x → Simple.pseudo name arg i ∈ c.simples → Nested k t i → Nested (k + 1) t sel

/-- The number of compounds joined by combinators. -/
def partCount : Complex → Nat
  | .one _ => 1
  | .comb l _ _ => partCount l + 1

/-! ### Queries -/

/-- What comes directly below a node in document order: the contents of an HTML template, then the children. -/
def under (h : Heap) (n : Nat) : List Nat :=
  (if (h.obj n).name = c%"template" ∧ (h.obj n).ns = some c%"html" then (h.obj n).content.toList else []) ++ (h.obj n).children.getD []

/-- `out` is the list of the nodes of `l` and of everything below them, in document order. -/
inductive Preorder (h : Heap) : List Nat → List Nat → Prop
  | nil : Preorder h [] []
  | cons {n : Nat} {l a b : List Nat} : Preorder h (under h n) a → Preorder h l b → Preorder h (n :: l) (n :: a ++ b)

/-- `:comment` is one of the simple selectors, outside `:not`. -/
def AsksComments (sel : Sel) : Prop := ∃ x ∈ sel, ∃ c, PartOf c x ∧ ∃ arg i, Simple.pseudo c%"comment" arg i ∈ c.simples

/-- `out` is what a query for `sel` from `root` should return: exactly those nodes below `root` that match, once each, in document order. Nodes that are
not elements count only if the selector asks for comments. -/
def Answers (U : Uni) (unq : Str → Str) (h : Heap) (root : Nat) (sel : Sel) (out : List Nat) : Prop :=
  ∃ l, Preorder h (under h root) l ∧ l.Nodup ∧ out.Sublist l ∧ ∀ n ∈ l, n ∈ out ↔ (Elem h n ∨ AsksComments sel) ∧ satSel U unq h sel n

end JH.Spec

namespace JH.Spec

mutual
/-- No descendant combinator and no `~` right after a `+`, also inside `:not`. -/
def easySimple : Simple → Prop
  | .pseudo _ _ inner => easySel inner
  | _ => True
def easySimples : List Simple → Prop
  | [] => True
  | s :: ss => easySimple s ∧ easySimples ss
def easyCompound : Compound → Prop
  | .mk _ l => easySimples l
def easyComplex : Complex → Prop
  | .one c => easyCompound c
  | .comb left op c => easyComplex left ∧ easyCompound c ∧ op ≠ .desc ∧ (op = .sib → lastComb left ≠ some .adj)
def easySel : List Complex → Prop
  | [] => True
  | x :: xs => easyComplex x ∧ easySel xs
end

/-- The same, inside `:not` only. -/
def easyInside : Complex → Prop
  | .one c => easyCompound c
  | .comb left _ c => easyInside left ∧ easyCompound c

end JH.Spec

namespace JH.Spec

/-- The pseudo-classes that exist; `:contains` needs an argument. -/
def Supported (name : Str) (arg : Option Str) : Prop :=
  name ∈ [c%"first-child", c%"last-child", c%"nth-child", c%"not", c%"only-child", c%"empty", c%"root", c%"contains", c%"comment", c%"first-of-type",
    c%"last-of-type", c%"nth-of-type", c%"only-of-type"] ∧ (name = c%"contains" → arg ≠ none)

/-- All pseudo-classes in the selector exist. -/
def SupportedSel (sel : Sel) : Prop :=
  ∀ k t, Nested k t sel → ∀ x ∈ t, ∀ c, PartOf c x → ∀ name arg i, Simple.pseudo name arg i ∈ c.simples → Supported name arg

end JH.Spec

namespace JH.Spec

/-- No combinators, also inside `:not`. -/
def NoCombinators (sel : Sel) : Prop := ∀ k t, Nested k t sel → ∀ x ∈ t, ∃ c, x = .one c

end JH.Spec
