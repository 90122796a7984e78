import Verif.Model.BlockText
import Verif.Spec.BlockText
import Verif.Props.Serialize

/-! Property C103: text with separators only between blocks. -/
namespace JH
open Spec

/-- What the text lineEvents leave in the chunks. -/
def runEvents (f : Str → Str) : List (Option Str) → Chunks → Chunks
  | [], c => c
  | none :: r, c => runEvents f r c.brk
  | some d :: r, c => runEvents f r (if d.isEmpty || (f d).isEmpty then c else c.add (f d))

theorem runEvents_append (f : Str → Str) (a b : List (Option Str)) (c : Chunks) : runEvents f (a ++ b) c = runEvents f b (runEvents f a c) := by
  induction a generalizing c with
  | nil => rfl
  | cons x a ih => cases x <;> simp [runEvents, ih]

/-- The lineEvents of a stack. -/
def stackEvents : List (Node × Bool) → List (Option Str)
  | [] => []
  | (_, true) :: st => none :: stackEvents st
  | (n, false) :: st => lineEvents n ++ stackEvents st

theorem stackEvents_append (a b : List (Node × Bool)) : stackEvents (a ++ b) = stackEvents a ++ stackEvents b := by
  induction a with
  | nil => rfl
  | cons x a ih => obtain ⟨n, e⟩ := x; cases e <;> simp [stackEvents, ih]

theorem stackEvents_kids (l : List Node) : stackEvents (l.map (·, false)) = lineEventsL l := by
  induction l with
  | nil => rfl
  | cons x a ih => simp [stackEvents, lineEventsL, ih]

/-- Fuel for a stack. -/
def stackCost : List (Node × Bool) → Nat
  | [] => 0
  | (_, true) :: st => 1 + stackCost st
  | (n, false) :: st => 2 * n.size + stackCost st

theorem stackCost_append (a b : List (Node × Bool)) : stackCost (a ++ b) = stackCost a + stackCost b := by
  induction a with
  | nil => simp [stackCost]
  | cons x a ih => obtain ⟨n, e⟩ := x; cases e <;> simp [stackCost, ih] <;> omega

theorem stackCost_kids (l : List Node) : stackCost (l.map (·, false)) = 2 * Node.sizeL l := by
  induction l with
  | nil => rfl
  | cons x a ih => simp [stackCost, Node.sizeL, ih]; omega

theorem blocksF_spec (f : Str → Str) (n : Nat) : ∀ (st : List (Node × Bool)) (c : Chunks), stackCost st < n →
    blocksF f n st c = .ok (runEvents f (stackEvents st) c) := by
  induction n with
  | zero => intro st c h; omega
  | succ n ih =>
    intro st c h
    match st with
    | [] => simp [blocksF, stackEvents, runEvents]
    | (nd, true) :: st =>
      simp only [stackCost] at h
      simp only [blocksF, stackEvents, runEvents]
      exact ih _ _ (by omega)
    | (nd, false) :: st =>
      have hp := node_size_pos nd
      simp only [stackCost] at h
      cases nd with
      | text d => simp only [blocksF, stackEvents, lineEvents, List.cons_append, List.nil_append, runEvents]; exact ih _ _ (by omega)
      | comment d => simp only [blocksF, stackEvents, lineEvents, List.nil_append]; exact ih _ _ (by omega)
      | pi d => simp only [blocksF, stackEvents, lineEvents, List.nil_append]; exact ih _ _ (by omega)
      | doctype x y z => simp only [blocksF, stackEvents, lineEvents, List.nil_append]; exact ih _ _ (by omega)
      | doc kids =>
        simp only [blocksF, stackEvents, lineEvents]
        simp only [Node.size] at h
        rw [ih _ _ (by rw [stackCost_append, stackCost_kids]; omega), stackEvents_append, stackEvents_kids]
      | elem name ns as kids tpl content =>
        simp only [blocksF, stackEvents, lineEvents]
        simp only [Node.size] at h
        by_cases hb : name = c%"br"
        · subst hb
          rw [if_pos (by decide), if_pos rfl]
          simp only [List.cons_append, List.nil_append, runEvents]
          exact ih _ _ (by omega)
        · rw [if_neg (by simpa [textBreakElements] using hb), if_neg hb]
          by_cases hk : name ∈ lineBlocks
          · have hk' : textBlockElements.contains name = true := by
              have : textBlockElements = lineBlocks := rfl
              rw [this]; simpa using hk
            rw [hk', if_pos hk]
            simp only [if_true]
            rw [ih _ _ (by
              rw [stackCost_append, stackCost_kids, stackCost_append]
              cases tpl <;> simp [stackCost, Node.size] <;> omega)]
            rw [stackEvents_append, stackEvents_kids, stackEvents_append]
            cases tpl <;> simp [stackEvents, lineEvents, runEvents]
          · have hk' : textBlockElements.contains name = false := by
              have : textBlockElements = lineBlocks := rfl
              rw [this]; simpa using hk
            rw [hk', if_neg hk]
            simp only [Bool.false_eq_true, if_false, List.nil_append]
            rw [ih _ _ (by
              rw [stackCost_append, stackCost_kids, stackCost_append]
              cases tpl <;> simp [stackCost, Node.size] <;> omega)]
            rw [stackEvents_append, stackEvents_kids, stackEvents_append]
            cases tpl <;> simp [stackEvents, lineEvents]

/-- All chunks that are not empty. -/
def Chunks.lines (c : Chunks) : List (List Str) := (c.before ++ [c.last]).filter fun l => !l.isEmpty

theorem cutLines_ne (evs : List (Option Str)) : cutLines evs ≠ [] := by
  match evs with
  | [] => simp [cutLines]
  | none :: r => simp [cutLines]
  | some d :: r =>
    rw [cutLines]
    cases h : cutLines r <;> simp

theorem cutLines_some (d : Str) (r : List (Option Str)) : ∃ l ls, cutLines r = l :: ls ∧ cutLines (some d :: r) = (d :: l) :: ls := by
  cases h : cutLines r with
  | nil => exact absurd h (cutLines_ne r)
  | cons l ls => exact ⟨l, ls, rfl, by rw [cutLines, h]⟩

/-- What remains of one line. -/
def keepLine (f : Str → Str) (l : List Str) : List Str := (l.map f).filter fun d => !d.isEmpty

theorem runEvents_lines (f : Str → Str) (hf : f [] = []) (evs : List (Option Str)) : ∀ (c : Chunks) (l : List Str) (ls : List (List Str)), cutLines evs = l :: ls →
    (runEvents f evs c).lines =
      (c.before ++ (c.last ++ keepLine f l) :: ls.map (keepLine f)).filter fun l => !l.isEmpty := by
  induction evs with
  | nil =>
    intro c l ls h
    simp only [cutLines, List.cons.injEq] at h
    obtain ⟨rfl, rfl⟩ := h
    simp [runEvents, Chunks.lines, keepLine]
  | cons x r ih =>
    intro c l ls h
    cases x with
    | none =>
      simp only [cutLines, List.cons.injEq] at h
      obtain ⟨rfl, rfl⟩ := h
      cases h' : cutLines r with
      | nil => exact absurd h' (cutLines_ne r)
      | cons l' ls' =>
        rw [runEvents, ih _ _ _ h', Chunks.brk]
        cases hc : c.last with
        | nil => simp [hc, keepLine]
        | cons a b => simp [keepLine]
    | some d =>
      obtain ⟨l', ls', h1, h2⟩ := cutLines_some d r
      rw [h2] at h
      simp only [List.cons.injEq] at h
      obtain ⟨rfl, rfl⟩ := h
      rw [runEvents, ih _ _ _ h1]
      by_cases hd : (d.isEmpty || (f d).isEmpty) = true
      · rw [if_pos hd]
        have : (f d).isEmpty = true := by
          simp only [Bool.or_eq_true] at hd
          rcases hd with h | h
          · simp at h; subst h; simp [hf]
          · exact h
        have hk : keepLine f (d :: l') = keepLine f l' := by
          unfold keepLine; rw [List.map_cons, List.filter_cons_of_neg (by simpa using this)]
        rw [hk]
      · rw [if_neg hd]
        have : ¬ (f d).isEmpty = true := by
          simp only [Bool.or_eq_true, not_or] at hd; exact hd.2
        have hk : keepLine f (d :: l') = f d :: keepLine f l' := by
          unfold keepLine; rw [List.map_cons, List.filter_cons_of_pos (by simpa using this)]
        rw [hk]
        simp [Chunks.add]

/-- C103: `to_text(separator_blocks_only=True)` terminates on every tree, and is the lines of the tree, joined by the separator; the texts of a line are
joined by a space if they are stripped, and by nothing otherwise. -/
theorem C103_lines (U : Uni) (sep : Str) (strip : Bool) (n : Node) :
    toTextCall U sep strip true n =
      .ok (join sep ((linesOf (if strip then stripP U.isSpace else id) (lineEvents n)).map (join (if strip then c%" " else [])))) := by
  unfold toTextCall
  simp only [if_true]
  generalize hfe : (if strip = true then stripP U.isSpace else id) = f
  have hf : f [] = [] := by subst hfe; cases strip <;> rfl
  have hp := node_size_pos n
  unfold toTextBlocks
  rw [blocksF_spec f _ _ _ (by simp [stackCost])]
  simp only [stackEvents, List.append_nil]
  cases h : cutLines (lineEvents n) with
  | nil => exact absurd h (cutLines_ne _)
  | cons l ls =>
    have := runEvents_lines f hf (lineEvents n) {} l ls h
    unfold Chunks.lines at this
    rw [this, linesOf, h]
    rfl

/-! ### What lines are -/

theorem cutLines_append_none (a b : List (Option Str)) : cutLines (a ++ none :: b) = cutLines a ++ cutLines b := by
  induction a with
  | nil => rfl
  | cons x a ih =>
    cases x with
    | none => simp [cutLines, ih]
    | some d =>
      obtain ⟨l, ls, h1, h2⟩ := cutLines_some d a
      rw [h2, List.cons_append, cutLines, ih, h1]
      rfl

theorem linesOf_append_none (f : Str → Str) (a b : List (Option Str)) : linesOf f (a ++ none :: b) = linesOf f a ++ linesOf f b := by
  simp [linesOf, cutLines_append_none]

theorem lineEventsL_append (a b : List Node) : lineEventsL (a ++ b) = lineEventsL a ++ lineEventsL b := by
  induction a with
  | nil => rfl
  | cons x a ih => simp [lineEventsL, ih]

theorem linesOf_none_left (f : Str → Str) (a : List (Option Str)) : linesOf f (none :: a) = linesOf f a := by
  have := linesOf_append_none f [] a
  simpa [linesOf, cutLines] using this

/-- C103: no line has text from inside a block and from outside it: among siblings, the lines are those of what is before the block, those of the block and
those of what is after it. -/
theorem C103_block (f : Str → Str) (a b : List Node) (name : Str) (ns : Option Str) (as : List (Str × Option Str)) (kids : List Node) (tpl : Bool) (content : List Node)
    (h : name ∈ lineBlocks ∨ name = c%"br") :
    linesOf f (lineEventsL (a ++ .elem name ns as kids tpl content :: b)) =
      linesOf f (lineEventsL a) ++ linesOf f (lineEvents (.elem name ns as kids tpl content)) ++ linesOf f (lineEventsL b) := by
  rw [lineEventsL_append]
  simp only [lineEventsL, lineEvents]
  by_cases hb : name = c%"br"
  · rw [if_pos hb]
    rw [List.cons_append, List.nil_append, linesOf_append_none]
    have : linesOf f [none] = [] := by simp [linesOf, cutLines]
    rw [this, List.append_nil]
  · rw [if_neg hb, if_pos (h.resolve_right hb)]
    simp only [List.cons_append, List.append_assoc, List.nil_append]
    generalize (if tpl = true then lineEventsL content else []) = X
    have e0 : linesOf f [] = [] := by simp [linesOf, cutLines]
    have e1 : linesOf f (lineEventsL kids ++ (X ++ [none])) = linesOf f (lineEventsL kids ++ X) := by
      rw [← List.append_assoc, linesOf_append_none, e0, List.append_nil]
    rw [linesOf_append_none, ← List.append_assoc, linesOf_append_none, linesOf_none_left, e1]

mutual
theorem events_texts : ∀ n : Node, NoTextInBr n → (lineEvents n).filterMap id = texts n
  | .text d, _ => by simp [lineEvents, texts]
  | .comment _, _ => by simp [lineEvents, texts]
  | .pi _, _ => by simp [lineEvents, texts]
  | .doctype _ _ _, _ => by simp [lineEvents, texts]
  | .doc kids, h => by
    rw [NoTextInBr] at h
    rw [lineEvents, texts, eventsL_texts kids h]
  | .elem name ns as kids tpl content, h => by
    rw [NoTextInBr] at h
    obtain ⟨h1, h2, h3⟩ := h
    have e1 := eventsL_texts kids h2
    have e2 := eventsL_texts content h3
    simp only [lineEvents, texts]
    by_cases hb : name = c%"br"
    · rw [if_pos hb, h1 hb]; rfl
    · rw [if_neg hb]
      split <;> cases tpl <;> simp [e1, e2]
theorem eventsL_texts : ∀ l : List Node, NoTextInBrL l → (lineEventsL l).filterMap id = textsL l
  | [], _ => rfl
  | n :: ns, h => by
    rw [NoTextInBrL] at h
    simp [lineEventsL, textsL, events_texts n h.1, eventsL_texts ns h.2]
end

theorem cutLines_flatten (evs : List (Option Str)) : (cutLines evs).flatten = evs.filterMap id := by
  induction evs with
  | nil => rfl
  | cons x r ih =>
    cases x with
    | none => simp [cutLines, ih]
    | some d =>
      obtain ⟨l, ls, h1, h2⟩ := cutLines_some d r
      rw [h1] at ih
      rw [h2]
      simp at ih ⊢
      exact ih

/-- C103: the lines together are the texts of the tree in document order (unless a `br` has text in it, which is lost): nothing is lost, doubled or moved. -/
theorem C103_texts (f : Str → Str) (n : Node) (h : NoTextInBr n) :
    (linesOf f (lineEvents n)).flatten = ((texts n).map f).filter fun d => !d.isEmpty := by
  have key : ∀ L : List (List Str), ((L.map fun l => (l.map f).filter fun d => !d.isEmpty).filter fun l => !l.isEmpty).flatten =
      (L.flatten.map f).filter fun d => !d.isEmpty := by
    intro L
    induction L with
    | nil => rfl
    | cons l L ih =>
      rw [List.map_cons, List.filter_cons]
      split
      · simp [ih]
      · rename_i hl
        have : (l.map f).filter (fun d => !d.isEmpty) = [] := by simpa using hl
        rw [ih, List.flatten_cons, List.map_append, List.filter_append, this, List.nil_append]
  rw [linesOf, key, cutLines_flatten, events_texts n h]

/-- C103: with `strip=False` and an empty separator the result is the text content, as without `separator_blocks_only`. -/
theorem C103_text_content (U : Uni) (n : Node) (h : NoTextInBr n) : toTextCall U [] false true n = toTextCall U [] false false n := by
  have h2 : ∀ l : List Str, join [] l = l.flatten := by
    intro l
    induction l with
    | nil => rfl
    | cons a l ih =>
      cases l with
      | nil => simp [join]
      | cons b l => rw [join, ih] <;> simp
  rw [C103_lines]
  have ht := C103_texts id n h
  simp only [toTextCall, Bool.false_eq_true, if_false, C57_text_content]
  congr 1
  rw [h2]
  have : (linesOf id (lineEvents n)).map (join []) = (linesOf id (lineEvents n)).map List.flatten := List.map_congr_left fun l _ => h2 l
  rw [this, ← List.flatten_flatten, ht]
  generalize texts n = L
  induction L with
  | nil => rfl
  | cons a L ih =>
    cases a with
    | nil => simpa using ih
    | cons x xs => simp at ih ⊢; exact ih

mutual
theorem events_inline : ∀ n : Node, InlineOnly n → none ∉ lineEvents n
  | .text d, _ => by simp [lineEvents]
  | .comment _, _ => by simp [lineEvents]
  | .pi _, _ => by simp [lineEvents]
  | .doctype _ _ _, _ => by simp [lineEvents]
  | .doc kids, h => by
    rw [InlineOnly] at h
    rw [lineEvents]; exact eventsL_inline kids h
  | .elem name ns as kids tpl content, h => by
    rw [InlineOnly] at h
    obtain ⟨h1, h2, h3, h4⟩ := h
    have e1 := eventsL_inline kids h3
    have e2 := eventsL_inline content h4
    simp only [lineEvents]
    rw [if_neg h2, if_neg h1]
    cases tpl <;> simp [e1, e2]
theorem eventsL_inline : ∀ l : List Node, InlineOnlyL l → none ∉ lineEventsL l
  | [], _ => by simp [lineEventsL]
  | n :: ns, h => by
    rw [InlineOnlyL] at h
    simp [lineEventsL, events_inline n h.1, eventsL_inline ns h.2]
end

/-- C103: inline elements never break a line: without blocks and line breaks, all text stands on one line, and the separator does not occur. -/
theorem C103_inline (f : Str → Str) (n : Node) (h : InlineOnly n) : (linesOf f (lineEvents n)).length ≤ 1 := by
  have h1 : ∀ evs : List (Option Str), none ∉ evs → (cutLines evs).length = 1 := by
    intro evs
    induction evs with
    | nil => intro _; rfl
    | cons x r ih =>
      intro hx
      cases x with
      | none => simp at hx
      | some d =>
        obtain ⟨l, ls, h1, h2⟩ := cutLines_some d r
        have := ih (fun k => hx (by simp [k]))
        rw [h1] at this
        rw [h2]; simpa using this
  have := h1 _ (events_inline n h)
  unfold linesOf
  exact Nat.le_trans (List.length_filter_le _ _) (by rw [List.length_map, this]; exact Nat.le_refl 1)

/-- F75: text inside a `br` element (only in trees built by hand) is lost with `separator_blocks_only=True`, and kept without. -/
theorem C103_br_fails : ∃ n : Node, toTextCall Uni.sample c%"|" true true n = .ok c%"a" ∧ toTextCall Uni.sample c%"|" true false n = .ok c%"a|b" :=
  ⟨.doc [.text c%"a", .elem c%"br" (some c%"html") [] [.text c%"b"] false []], by with_unfolding_all decide +kernel, by with_unfolding_all decide +kernel⟩

example : toTextCall Uni.sample c%"\n" true true (.doc [.text c%" a ", .elem c%"b" none [] [.text c%"b"] false [],
      .elem c%"div" none [] [.elem c%"p" none [] [.text c%"c", .elem c%"br" none [] [] false [], .text c%"d"] false []] false [], .text c%"e"])
    = .ok c%"a b\nc\nd\ne" := by with_unfolding_all decide +kernel
example : NoTextInBr (.doc [.text c%" a ", .elem c%"br" none [] [] false []]) := by simp [NoTextInBr, NoTextInBrL, textsL]

end JH
