import Verif.Props.StartTag
import Verif.Spec.Tree

/-! Properties C12 and C57: document order. -/
namespace JH
open Spec

/-- Fuel needed by the items of the stack. -/
def SItem.cost : SItem → Nat
  | .node _ n => 2 * n.size
  | .close _ => 1

def costL (st : List SItem) : Nat := (st.map SItem.cost).sum

/-- The markup of a stack. -/
def stackMarkup (U : Uni) : List SItem → Option Str
  | [] => some []
  | .close name :: st => (stackMarkup U st).map fun b => (c%"</" ++ name ++ c%">") ++ b
  | .node ctx n :: st =>
    match markup U ctx n, stackMarkup U st with
    | some a, some b => some (a ++ b)
    | _, _ => none

theorem node_size_pos (n : Node) : 1 ≤ n.size := by
  cases n <;> simp [Node.size] <;> omega

theorem costL_nodes (ctx : Option Str) (kids : List Node) : costL (kids.map (SItem.node ctx)) = 2 * Node.sizeL kids := by
  induction kids with
  | nil => rfl
  | cons k ks ih =>
    simp only [costL, List.map_cons, List.sum_cons, Node.sizeL] at ih ⊢
    rw [ih]; simp [SItem.cost]; omega

theorem costL_append (a b : List SItem) : costL (a ++ b) = costL a + costL b := by simp [costL]

theorem stackMarkup_nodes (U : Uni) (ctx : Option Str) (kids : List Node) (st : List SItem) :
    stackMarkup U (kids.map (SItem.node ctx) ++ st) =
      match markupL U ctx kids, stackMarkup U st with
      | some a, some b => some (a ++ b)
      | _, _ => none := by
  induction kids with
  | nil => simp [markupL]; cases stackMarkup U st <;> rfl
  | cons k ks ih =>
    simp only [List.map_cons, List.cons_append, stackMarkup, markupL, ih]
    cases markup U ctx k <;> cases markupL U ctx ks <;> cases stackMarkup U st <;> simp

theorem serKids_size (name : Str) (ns : Option Str) (kids : List Node) (tpl : Bool) (content : List Node) :
    Node.sizeL (serKids name ns kids tpl content).2 ≤ Node.sizeL kids + Node.sizeL content := by
  unfold serKids; split <;> simp

theorem serializeTextFor_nil (U : Uni) (ctx : Option Str) : serializeTextFor U ctx [] = [] := by
  have h0 : escapeText [] = [] := by decide
  have h1 : ∀ tag, (neutralize (asciiLower U) tag []).1 = [] := by
    intro tag
    have : asciiLower U [] = [] := by
      have := U.lower_ascii [] (by simp)
      simp [asciiLower, this]
    simp [neutralize, neutLoop, this, find?]
  unfold serializeTextFor
  cases ctx with
  | none => exact h0
  | some p =>
    dsimp only
    repeat' split
    · rfl
    · exact h1 _
    · exact h0

theorem compactF_spec (U : Uni) (n : Nat) : ∀ (st : List SItem) (out : Str), costL st < n →
    compactF U n st out = match stackMarkup U st with
      | some s => .ok (out ++ s)
      | none => .error := by
  induction n with
  | zero => intro st out h; omega
  | succ n ih =>
    intro st out h
    cases st with
    | nil => simp [compactF, stackMarkup]
    | cons it st =>
      have hc : costL (it :: st) = it.cost + costL st := by simp [costL]
      cases it with
      | close name =>
        simp only [compactF, stackMarkup]
        rw [ih _ _ (by simp [hc, SItem.cost] at h; omega)]
        cases stackMarkup U st <;> simp
      | node ctx nd =>
        simp only [hc, SItem.cost] at h
        have hp := node_size_pos nd
        cases nd with
        | text d =>
          simp only [compactF, stackMarkup, markup]
          rw [ih _ _ (by omega)]
          cases stackMarkup U st with
          | none => rfl
          | some b =>
            by_cases hd : d.isEmpty = true
            · have : d = [] := by simpa using hd
              subst this
              simp [serializeTextFor_nil]
            · simp [hd]
        | comment d => simp only [compactF, stackMarkup, markup]; rw [ih _ _ (by omega)]; cases stackMarkup U st <;> simp
        | pi d => simp only [compactF, stackMarkup, markup]; rw [ih _ _ (by omega)]; cases stackMarkup U st <;> simp
        | doctype a b c => simp only [compactF, stackMarkup, markup]; rw [ih _ _ (by omega)]; cases stackMarkup U st <;> simp
        | doc kids =>
          simp only [compactF, stackMarkup, markup]
          rw [ih _ _ (by rw [costL_append, costL_nodes]; simp [Node.size] at h; omega), stackMarkup_nodes]
        | elem name ns attrs kids tpl content =>
          simp only [compactF, stackMarkup, markup]
          cases hs : serializeStartTag U { htmlNs := isHtmlNs ns } name attrs with
          | none => simp
          | some tag =>
            simp only []
            by_cases hv : voidElements.contains name = true
            · rw [if_pos hv, if_pos hv, ih _ _ (by omega)]
              cases stackMarkup U st <;> simp
            · rw [if_neg hv, if_neg hv]
              have hsz := serKids_size name ns kids tpl content
              rw [ih _ _ (by
                rw [costL_append, costL_nodes]
                simp only [Node.size] at h
                simp [costL, SItem.cost] at h ⊢
                omega), stackMarkup_nodes]
              simp only [stackMarkup]
              have hk : (if name = c%"template" ∧ tpl = true ∧ (ns = none ∨ ns = some c%"html") then
                  (markupL U none content).map fun inner => tag ++ inner ++ (c%"</" ++ name ++ c%">")
                else (markupL U (if ns = some c%"html" then some name else none) kids).map fun inner =>
                  tag ++ inner ++ (c%"</" ++ name ++ c%">")) =
                (markupL U (serKids name ns kids tpl content).1 (serKids name ns kids tpl content).2).map fun inner =>
                  tag ++ inner ++ (c%"</" ++ name ++ c%">") := by
                unfold serKids isHtmlNs textCtx
                by_cases hc : name = c%"template" ∧ tpl = true ∧ (ns = none ∨ ns = some c%"html")
                · rw [if_pos hc, if_pos (by simpa [and_assoc] using hc)]
                · have hc' : ¬ ((decide (name = c%"template") && tpl && (decide (ns = none) || decide (ns = some c%"html"))) = true) := by
                    simpa [and_assoc] using hc
                  rw [if_neg hc, if_neg hc']
              rw [hk]
              cases markupL U (serKids name ns kids tpl content).1 (serKids name ns kids tpl content).2 <;>
                cases stackMarkup U st <;> simp

/-- C12: the serializer's explicit-stack loop terminates on every finite tree and writes exactly the document-order markup,
or raises exactly when a name in the tree is refused. -/
theorem C12_document_order (U : Uni) (ctx : Option Str) (n : Node) :
    toHtmlCompact U ctx n = match markup U ctx n with
      | some s => .ok s
      | none => .error := by
  rw [toHtmlCompact, compactF_spec U _ _ _ (by simp [costL, SItem.cost])]
  simp only [stackMarkup]
  cases markup U ctx n <;> simp

/-! ### C57 -/

def stackTexts (st : List Node) : List Str := textsL st

theorem textsL_append (a b : List Node) : textsL (a ++ b) = textsL a ++ textsL b := by
  induction a with
  | nil => rfl
  | cons x a ih => simp [textsL, ih]

theorem sizeL_append (a b : List Node) : Node.sizeL (a ++ b) = Node.sizeL a + Node.sizeL b := by
  induction a with
  | nil => simp [Node.sizeL]
  | cons x a ih => simp [Node.sizeL, ih]; omega

/-- What `to_text` keeps of a list of text data: each is stripped, empty ones are dropped. -/
def keptTexts (strip : Str → Str) (l : List Str) : List Str :=
  (l.filter (fun d => !d.isEmpty && !(strip d).isEmpty)).map strip

theorem collectF_spec (strip : Str → Str) (n : Nat) : ∀ (st : List Node) (parts : List Str), Node.sizeL st < n →
    collectF strip n st parts = .ok (parts ++ keptTexts strip (textsL st)) := by
  have kt : ∀ a b, keptTexts strip (a ++ b) = keptTexts strip a ++ keptTexts strip b := by
    intro a b; simp [keptTexts]
  induction n with
  | zero => intro st parts h; omega
  | succ n ih =>
    intro st parts h
    cases st with
    | nil => simp [collectF, textsL, keptTexts]
    | cons nd st =>
      have hp := node_size_pos nd
      simp only [Node.sizeL] at h
      cases nd with
      | text d =>
        simp only [collectF, textsL, texts]
        rw [ih _ _ (by omega), kt]
        by_cases hd : (d.isEmpty || (strip d).isEmpty) = true
        · have : keptTexts strip [d] = [] := by
            simp only [keptTexts, List.filter_cons]
            simp only [Bool.or_eq_true] at hd
            rcases hd with h | h <;> simp [h]
          simp [hd, this]
        · have : keptTexts strip [d] = [strip d] := by
            simp only [keptTexts, List.filter_cons]
            simp only [Bool.or_eq_true, not_or, Bool.not_eq_true] at hd
            simp [hd]
          simp [hd, this]
      | comment d => simp only [collectF, textsL, texts, List.nil_append]; exact ih _ _ (by omega)
      | pi d => simp only [collectF, textsL, texts, List.nil_append]; exact ih _ _ (by omega)
      | doctype a b c => simp only [collectF, textsL, texts, List.nil_append]; exact ih _ _ (by omega)
      | doc kids =>
        simp only [collectF, textsL, texts]
        rw [ih _ _ (by rw [sizeL_append]; simp only [Node.size] at h; omega), textsL_append]
      | elem name ns attrs kids tpl content =>
        simp only [collectF, textsL, texts]
        simp only [Node.size] at h
        rw [ih _ _ (by
          rw [sizeL_append, sizeL_append]
          cases tpl <;> simp [Node.sizeL, Node.size] <;> omega), textsL_append, textsL_append]
        cases tpl <;> simp [textsL, texts]

/-- C57: `to_text(strip=False, separator="")` terminates on every finite tree and is the concatenation of all text in
document order. -/
theorem C57_text_content (n : Node) : toText id [] n = .ok (texts n).flatten := by
  have hj : ∀ l : List Str, join [] (keptTexts id l) = l.flatten := by
    intro l
    have h2 : ∀ l : List Str, join [] l = l.flatten := by
      intro l
      induction l with
      | nil => rfl
      | cons a l ih =>
        cases l with
        | nil => simp [join]
        | cons b l => rw [join, ih] <;> simp
    rw [h2]
    induction l with
    | nil => rfl
    | cons a l ih =>
      simp only [keptTexts, List.filter_cons] at ih ⊢
      cases a with
      | nil => simpa using ih
      | cons x xs => simp at ih ⊢; exact ih
  have hp := node_size_pos n
  unfold toText
  rw [collectF_spec id _ _ _ (by simp [Node.sizeL]; omega)]
  simp [textsL, hj]

/-- C57, with stripping and any separator: the stripped non-empty texts in document order, joined by the separator. -/
theorem C57_text_stripped (strip : Str → Str) (hs : strip [] = []) (sep : Str) (n : Node) :
    toText strip sep n = .ok (join sep (((texts n).map strip).filter (fun d => !d.isEmpty))) := by
  have hp := node_size_pos n
  unfold toText
  rw [collectF_spec strip _ _ _ (by simp [Node.sizeL]; omega)]
  simp only [List.nil_append, textsL, List.append_nil]
  congr 2
  unfold keptTexts
  rw [List.filter_map]
  congr 1
  apply List.filter_congr
  intro d _
  cases d with
  | nil => simp [hs]
  | cons a b => simp

example : toText id [] (.elem c%"p" none [] [.text c%"a", .elem c%"b" none [] [.text c%"b"] false [], .text c%"c"] false [])
    = .ok c%"abc" := by decide
example : toHtmlCompact Uni.sample none (.elem c%"p" (some c%"html") [(c%"id", some c%"x")]
    [.text c%"a<", .elem c%"br" (some c%"html") [] [.text c%"lost"] false [], .comment c%"-->"] false [])
    = .ok c%"<p id=\"x\">a&lt;<br><!--- ->--></p>" := by decide

end JH
