import Verif.Props.SanMain
/-! The walker without user transforms, as a recursive function on trees. -/
namespace JH
open Spec

/-- Results of consecutive nodes; `true` means that everything after is dropped. -/
def cutSeq (a b : List Node × Bool) : List Node × Bool := if a.2 then a else (a.1 ++ b.1, b.2)

/-- What a dropped comment is replaced by. -/
def commentRes (C : SanCfg) (n : Node) : List Node :=
  if C.handling = .escape then
    match n with
    | .comment d => [.text (c%"<!--" ++ d ++ c%"-->")]
    | .pi d => [.text (c%"<!--" ++ d ++ c%"-->")]
    | _ => [.text c%"<!---->"]
  else []

/-- The text of a tag, as it comes out. -/
def tagText (C : SanCfg) (t : Option Str) : List Node :=
  (textNode? t).map fun n => match n with
    | .text d => .text (if C.stripInv then stripInvisible d else d)
    | n => n

/-- A special node that is not an element. -/
def cleanLeaf (S : SanEnv) (C : SanCfg) (n : Node) : List Node :=
  if C.dropComments = true ∧ isCommentName n = true then commentRes C n
  else if C.dropDoctype = true ∧ nodeName n = c%"!doctype" then []
  else [finish S C n]

mutual
/-- What becomes of a node: `hoist` says that it was moved out of a removed parent, `fc` that an ancestor is foreign. -/
def clean (S : SanEnv) (C : SanCfg) (hoist fc : Bool) : Node → List Node × Bool
  | .elem name ns as kids tpl content =>
    let n := Node.elem name ns as kids tpl content
    let foreign := fc || isForeign S.E.U n
    if isSpecial n then
      if C.dropComments = true ∧ isCommentName n = true then (commentRes C n, false)
      else if C.dropDoctype = true ∧ nodeName n = c%"!doctype" then ([], false)
      else if name.head? = some '#' then
        (if name = c%"#text" || isCommentName n then ([n], false)
          else ([.elem name ns as (cleanL S C false foreign kids).1 tpl content], false))
      else ([.elem name ns as (cleanL S C false foreign kids).1 tpl (if tpl then (cleanL S C false foreign content).1 else content)], false)
    else if !hoist && foreign then ([], S.unclosed n)
    else match decision S.E.U C name with
      | .keep =>
        ([.elem name ns (postAttrs S C name as) (cleanL S C false foreign kids).1 tpl
          (if tpl then (cleanL S C false foreign content).1 else content)], false)
      | .drop => ([], false)
      | .unwrap => cutSeq (cleanL S C true fc kids) (if tpl then cleanL S C true fc content else ([], false))
      | .escape =>
        cutSeq (tagText C (S.startText n), false)
          (cutSeq (cutSeq (cleanL S C true fc kids) (if tpl then cleanL S C true fc content else ([], false)))
            (tagText C (S.endText n), false))
  | .doc kids => ([.doc (cleanL S C false fc kids).1], false)
  | .text d => (cleanLeaf S C (.text d), false)
  | .comment d => (cleanLeaf S C (.comment d), false)
  | .pi d => (cleanLeaf S C (.pi d), false)
  | .doctype a b c => (cleanLeaf S C (.doctype a b c), false)
/-- The same for consecutive siblings. -/
def cleanL (S : SanEnv) (C : SanCfg) (hoist fc : Bool) : List Node → List Node × Bool
  | [] => ([], false)
  | n :: ns => cutSeq (clean S C hoist fc n) (cleanL S C hoist fc ns)
end

/-- The items of the walk. -/
def cleanItem (S : SanEnv) (C : SanCfg) (fc : Bool) (x : Node × Nat) : List Node × Bool :=
  if x.2 = 0 then clean S C false fc x.1 else if x.2 = 1 then clean S C true fc x.1 else ([x.1], false)

def cleanItems (S : SanEnv) (C : SanCfg) (fc : Bool) : List (Node × Nat) → List Node × Bool
  | [] => ([], false)
  | x :: xs => cutSeq (cleanItem S C fc x) (cleanItems S C fc xs)

/-- Admissible items. -/
def ItemOk (x : Node × Nat) : Prop := x.2 ≤ 1 ∨ (3 ≤ x.2 ∧ ∃ d, x.1 = .text d)

/-- The cost of an item. -/
def itemCost (x : Node × Nat) : Nat := if x.2 ≤ 1 then 2 * x.1.size else 1

def itemsCost : List (Node × Nat) → Nat
  | [] => 0
  | x :: xs => itemCost x + itemsCost xs

theorem cutSeq_assoc (a b c : List Node × Bool) : cutSeq (cutSeq a b) c = cutSeq a (cutSeq b c) := by
  unfold cutSeq; cases ha : a.2 <;> cases hb : b.2 <;> simp [ha, hb]

theorem cutSeq_nil (a : List Node × Bool) : cutSeq a ([], false) = a := by
  obtain ⟨l, b⟩ := a; cases b <;> simp [cutSeq]

theorem nil_cutSeq (a : List Node × Bool) : cutSeq ([], false) a = a := by
  simp [cutSeq]

theorem cleanItems_append (S : SanEnv) (C : SanCfg) (fc : Bool) (a b : List (Node × Nat)) :
    cleanItems S C fc (a ++ b) = cutSeq (cleanItems S C fc a) (cleanItems S C fc b) := by
  induction a with
  | nil => simp [cleanItems, nil_cutSeq]
  | cons x xs ih => simp [cleanItems, ih, cutSeq_assoc]

theorem itemsCost_append (a b : List (Node × Nat)) : itemsCost (a ++ b) = itemsCost a + itemsCost b := by
  induction a with
  | nil => simp [itemsCost]
  | cons x xs ih => simp [itemsCost, ih]; omega

theorem cleanItems_zero (S : SanEnv) (C : SanCfg) (fc : Bool) (l : List Node) :
    cleanItems S C fc (l.map fun k => (k, 0)) = cleanL S C false fc l := by
  induction l with
  | nil => simp [cleanItems, cleanL]
  | cons x xs ih => simp [cleanItems, cleanL, ih, cleanItem]

theorem cleanItems_one (S : SanEnv) (C : SanCfg) (fc : Bool) (l : List Node) :
    cleanItems S C fc (l.map fun k => (k, 1)) = cleanL S C true fc l := by
  induction l with
  | nil => simp [cleanItems, cleanL]
  | cons x xs ih => simp [cleanItems, cleanL, ih, cleanItem]

theorem itemsCost_map (l : List Node) (s : Nat) (hs : s ≤ 1) : itemsCost (l.map fun k => (k, s)) = 2 * Node.sizeL l := by
  induction l with
  | nil => simp [itemsCost, Node.sizeL]
  | cons x xs ih => simp [itemsCost, Node.sizeL, ih, itemCost, hs]; omega

theorem cleanL_append (S : SanEnv) (C : SanCfg) (h fc : Bool) (a b : List Node) :
    cleanL S C h fc (a ++ b) = cutSeq (cleanL S C h fc a) (cleanL S C h fc b) := by
  induction a with
  | nil => simp [cleanL, nil_cutSeq]
  | cons x xs ih => simp [cleanL, ih, cutSeq_assoc]

theorem sizeL_append (a b : List Node) : Node.sizeL (a ++ b) = Node.sizeL a + Node.sizeL b := by
  induction a with
  | nil => simp [Node.sizeL]
  | cons x xs ih => simp [Node.sizeL, ih]; omega

theorem cleanL_textNode (S : SanEnv) (C : SanCfg) (fc : Bool) (t : Option Str) :
    cleanL S C true fc (textNode? t) = (tagText C t, false) := by
  cases t with
  | none => simp [textNode?, cleanL, tagText]
  | some s =>
    by_cases hs : s.isEmpty
    · simp [textNode?, hs, cleanL, tagText]
    · have : cleanL S C true fc [Node.text s] = ([Node.text (if C.stripInv = true then stripInvisible s else s)], false) := by
        simp only [cleanL, clean, cleanLeaf]
        simp [isCommentName, nodeName, finish, cutSeq]
      simpa [textNode?, hs, tagText] using this

theorem size_pos (n : Node) : 1 ≤ n.size := by cases n <;> simp [Node.size] <;> omega

theorem nodeName_ne_hash {n : Node} (h : isSpecial n = false) : ∃ name ns as kids tpl content, n = .elem name ns as kids tpl content := by
  cases n with
  | elem a b c d e f => exact ⟨a, b, c, d, e, f, rfl⟩
  | _ => simp [isSpecial, nodeName] at h

theorem textNode_size (t : Option Str) : Node.sizeL (textNode? t) ≤ 1 := by
  cases t with
  | none => simp [textNode?, Node.sizeL]
  | some s => simp only [textNode?]; split <;> simp [Node.sizeL, Node.size]

/-- The outcome of one run of the transforms on an item, compared with `clean`. -/
def RunOk (S : SanEnv) (C : SanCfg) (fc : Bool) (x : Node × Nat) (r : StepR) : Prop :=
  (r = .cut ∧ cleanItem S C fc x = ([], true)) ∨
  (∃ l, r = .done l ∧ (∀ y ∈ l, ItemOk y) ∧ itemsCost l + 1 ≤ itemCost x ∧ cleanItem S C fc x = cleanItems S C fc l) ∨
  (∃ n', r = .cont n' ∧ ∀ (w : Bool → List Node → List Node),
    (∀ b k, 2 * Node.sizeL k + 2 ≤ itemCost x → w b k = (cleanL S C false (fc || isForeign S.E.U x.1) k).1) →
    cleanItem S C fc x = ([descend w n'], false))

theorem run_tail (S : SanEnv) (C : SanCfg) (path : List Frame) (fc : Bool) (n : Node) :
    RunOk S C fc (n, 1) (runOps S C path (fc || isForeign S.E.U n) 1 (tailOps C) n) := by
  rw [tail_cont]
  have hcl : cleanItem S C fc (n, 1) = clean S C true fc n := by simp [cleanItem]
  by_cases h1 : isSpecial n = false ∧ decision S.E.U C (nodeName n) ≠ .keep
  · rw [if_pos h1]
    obtain ⟨name, ns, as, kids, tpl, content, rfl⟩ := nodeName_ne_hash h1.1
    have hk : isSpecial (.elem name ns as kids tpl content) = false := h1.1
    have hd : decision S.E.U C (nodeName (.elem name ns as kids tpl content)) = decision S.E.U C name := rfl
    have hh : cleanL S C true fc (hoisted (.elem name ns as kids tpl content)) =
        cutSeq (cleanL S C true fc kids) (if tpl then cleanL S C true fc content else ([], false)) := by
      cases tpl
      · simp [hoisted, cutSeq_nil]
      · simp [hoisted, cleanL_append]
    have hsz : Node.sizeL (hoisted (.elem name ns as kids tpl content)) ≤ Node.sizeL kids + Node.sizeL content := by
      cases tpl <;> simp [hoisted, sizeL_append]
    refine .inr (.inl ?_)
    simp only [applyOp, hk, hd]
    cases hdec : decision S.E.U C name with
    | keep => rw [hd] at h1; exact absurd hdec h1.2
    | drop =>
      refine ⟨[], by simp, by simp, by simp [itemsCost, itemCost, Node.size]; omega, ?_⟩
      rw [hcl]
      simp [clean, hk, hdec, cleanItems]
    | unwrap =>
      refine ⟨_, by simp; rfl, ?_, ?_, ?_⟩
      · intro y hy
        obtain ⟨k, -, rfl⟩ := List.mem_map.1 hy
        exact .inl (Nat.le_refl _)
      · rw [itemsCost_map _ 1 (Nat.le_refl _)]
        simp only [itemCost, Node.size]
        simp; omega
      · rw [hcl, cleanItems_one, hh]
        simp [clean, hk, hdec]
    | escape =>
      refine ⟨_, rfl, ?_, ?_, ?_⟩
      · intro y hy
        obtain ⟨k, -, rfl⟩ := List.mem_map.1 hy
        exact .inl (Nat.le_refl _)
      · rw [itemsCost_map _ 1 (Nat.le_refl _)]
        have a := textNode_size (S.startText (.elem name ns as kids tpl content))
        have b := textNode_size (S.endText (.elem name ns as kids tpl content))
        simp only [itemCost, Node.size, sizeL_append]
        simp; omega
      · rw [hcl, cleanItems_one, cleanL_append, cleanL_append, hh, cleanL_textNode, cleanL_textNode, cutSeq_assoc]
        simp [clean, hk, hdec, cutSeq_assoc]
  · rw [if_neg h1]
    have hkeep : isSpecial n = false → decision S.E.U C (nodeName n) = .keep := by
      intro hs
      by_cases hd : decision S.E.U C (nodeName n) = .keep
      · exact hd
      · exact absurd ⟨hs, hd⟩ h1
    by_cases h2 : C.dropComments = true ∧ isCommentName n = true
    · rw [if_pos h2]
      have hs : isSpecial n = true := by
        have := h2.2
        simp only [isCommentName, Bool.or_eq_true, decide_eq_true_eq] at this
        rcases this with hc | hc <;> simp [isSpecial, hc]
      have hcom : clean S C true fc n = (commentRes C n, false) := by
        cases n with
        | elem => simp only [clean]; rw [if_pos hs, if_pos h2]
        | doc => simp [isCommentName, nodeName] at h2
        | text => simp [isCommentName, nodeName] at h2
        | doctype => simp [isCommentName, nodeName] at h2
        | comment => simp only [clean, cleanLeaf]; rw [if_pos h2]
        | pi => simp only [clean, cleanLeaf]; rw [if_pos h2]
      refine .inr (.inl ?_)
      simp only [applyOp, h2.2]
      have hsz := size_pos n
      by_cases he : C.handling = .escape
      · simp only [he]
        cases n with
        | comment d =>
          refine ⟨_, rfl, ?_, by simp [itemsCost, itemCost, Node.size], ?_⟩
          · intro y hy
            obtain rfl := List.mem_singleton.1 hy
            exact .inr ⟨by simp only []; omega, _, rfl⟩
          · rw [hcl, hcom]
            have : ∀ (z : Nat) (x : Node), cleanItems S C fc [(x, z + 1 + 1)] = ([x], false) := by
              intro z x; simp [cleanItems, cleanItem, cutSeq]
            simp [commentRes, he, cleanItems, cleanItem, cutSeq]
        | pi d =>
          refine ⟨_, rfl, ?_, by simp [itemsCost, itemCost, Node.size], ?_⟩
          · intro y hy
            obtain rfl := List.mem_singleton.1 hy
            exact .inr ⟨by simp only []; omega, _, rfl⟩
          · rw [hcl, hcom]
            simp [commentRes, he, cleanItems, cleanItem, cutSeq]
        | elem =>
          refine ⟨_, rfl, ?_, by simp [itemsCost, itemCost, Node.size]; omega, ?_⟩
          · intro y hy
            obtain rfl := List.mem_singleton.1 hy
            exact .inr ⟨by simp only []; omega, _, rfl⟩
          · rw [hcl, hcom]
            simp [commentRes, he, cleanItems, cleanItem, cutSeq]
        | _ => simp [isCommentName, nodeName] at h2
      · refine ⟨[], by simp [he], by simp, by simp [itemsCost, itemCost]; omega, ?_⟩
        rw [hcl, hcom]
        simp [commentRes, he, cleanItems]
    · rw [if_neg h2]
      by_cases h3 : C.dropDoctype = true ∧ nodeName n = c%"!doctype"
      · rw [if_pos h3]
        have hs : isSpecial n = true := by simp [isSpecial, h3.2]
        have hsz := size_pos n
        refine .inr (.inl ⟨[], rfl, by simp, by simp [itemsCost, itemCost]; omega, ?_⟩)
        rw [hcl]
        cases n with
        | elem => simp only [clean]; rw [if_pos hs, if_neg h2, if_pos h3]; rfl
        | doc => simp [nodeName] at h3
        | text => simp [nodeName] at h3
        | doctype => simp only [clean, cleanLeaf]; rw [if_neg h2, if_pos h3]; rfl
        | comment => simp [nodeName] at h3
        | pi => simp [nodeName] at h3
      · rw [if_neg h3]
        refine .inr (.inr ⟨_, rfl, ?_⟩)
        intro w hw
        rw [hcl]
        cases n with
        | elem name ns as kids tpl content =>
          have hk1 : w false kids = (cleanL S C false (fc || isForeign S.E.U (.elem name ns as kids tpl content)) kids).1 := by
            apply hw; simp only [itemCost, Node.size]; simp; omega
          have hk2 : w true content = (cleanL S C false (fc || isForeign S.E.U (.elem name ns as kids tpl content)) content).1 := by
            apply hw; simp only [itemCost, Node.size]; simp; omega
          simp only [clean]
          by_cases hs : isSpecial (.elem name ns as kids tpl content) = true
          · rw [if_pos hs, if_neg h2, if_neg h3]
            simp only [finish]
            rw [if_pos hs]
            simp only [descend]
            by_cases hh : name.head? = some '#'
            · rw [if_pos hh, if_pos hh]
              by_cases ht : (decide (name = c%"#text") || isCommentName (.elem name ns as kids tpl content)) = true
              · rw [if_pos ht, if_pos ht]
              · rw [if_neg ht, if_neg ht, hk1]
            · rw [if_neg hh, if_neg hh, hk1, hk2]
          · rw [if_neg hs]
            have hd : decision S.E.U C name = .keep := hkeep (by simpa using hs)
            simp only [finish]
            rw [if_neg hs]
            simp only [setAttrs, descend, hd]
            have hh : ¬ name.head? = some '#' := by
              intro hh; apply hs; simp [isSpecial, nodeName, hh]
            rw [if_neg hh, hk1, hk2]
            simp
        | doc kids =>
          have hk1 : w false kids = (cleanL S C false fc kids).1 := by
            have := hw false kids (by simp only [itemCost, Node.size]; simp; omega)
            simpa [isForeign] using this
          simp only [clean, finish]
          rw [if_pos (by simp [isSpecial, nodeName])]
          simp only [descend, hk1]
        | text d => simp only [clean, cleanLeaf]; rw [if_neg h2, if_neg h3]; rfl
        | comment d => simp only [clean, cleanLeaf]; rw [if_neg h2, if_neg h3]; simp only [finish]; rw [if_pos (by simp [isSpecial, nodeName])]; rfl
        | pi d => simp only [clean, cleanLeaf]; rw [if_neg h2, if_neg h3]; simp only [finish]; rw [if_pos (by simp [isSpecial, nodeName])]; rfl
        | doctype a b c => simp only [clean, cleanLeaf]; rw [if_neg h2, if_neg h3]; simp only [finish]; rw [if_pos (by simp [isSpecial, nodeName])]; rfl

theorem clean_hoist (S : SanEnv) (C : SanCfg) (fc : Bool) (n : Node) (h : isSpecial n = true ∨ (fc || isForeign S.E.U n) = false) :
    clean S C false fc n = clean S C true fc n := by
  cases n with
  | elem name ns as kids tpl content =>
    simp only [clean]
    rcases h with h | h
    · rw [if_pos h, if_pos h]
    · simp only [h]; rfl
  | _ => simp only [clean]

theorem run_item (S : SanEnv) (C : SanCfg) (path : List Frame) (fc : Bool) (n : Node) (s : Nat) (hok : ItemOk (n, s)) :
    RunOk S C fc (n, s) (runOps S C path (fc || isForeign S.E.U n) s ((sanOps C).drop s) n) := by
  rcases hok with hs | ⟨hs, d, hd⟩
  · have h01 : s = 0 ∨ s = 1 := by simp at hs; omega
    rcases h01 with rfl | rfl
    · rw [List.drop_zero, sanOps_eq, runOps]
      by_cases hc : isSpecial n = true ∨ (fc || isForeign S.E.U n) = false
      · have : applyOp S C path (fc || isForeign S.E.U n) 0 .dropForeign n = .cont n := by
          simp only [applyOp]
          rw [if_pos]
          rcases hc with h | h <;> simp [h]
        rw [this]
        have e : cleanItem S C fc (n, 0) = cleanItem S C fc (n, 1) := by simp [cleanItem, clean_hoist S C fc n hc]
        have e2 : itemCost (n, 0) = itemCost (n, 1) := by simp [itemCost]
        have := run_tail S C path fc n
        unfold RunOk at this ⊢
        rw [e, e2]
        exact this
      · have hc1 : isSpecial n = false := by
          cases h : isSpecial n with
          | true => exact absurd (.inl h) hc
          | false => rfl
        have hc2 : (fc || isForeign S.E.U n) = true := by
          cases h : (fc || isForeign S.E.U n) with
          | true => rfl
          | false => exact absurd (.inr h) hc
        obtain ⟨name, ns, as, kids, tpl, content, rfl⟩ := nodeName_ne_hash hc1
        have hcl : cleanItem S C fc (.elem name ns as kids tpl content, 0) = ([], S.unclosed (.elem name ns as kids tpl content)) := by
          simp [cleanItem, clean, hc1, hc2]
        simp only [applyOp, hc1, hc2]
        cases hu : S.unclosed (.elem name ns as kids tpl content) with
        | true => refine .inl ⟨by simp, ?_⟩; rw [hcl, hu]
        | false =>
          refine .inr (.inl ⟨[], by simp, by simp, by simp [itemsCost, itemCost, Node.size]; omega, ?_⟩)
          rw [hcl, hu]; rfl
    · have : (sanOps C).drop 1 = tailOps C := by rw [sanOps_eq]; rfl
      rw [this]
      exact run_tail S C path fc n
  · simp only at hs hd
    subst hd
    refine .inr (.inr ⟨.text d, ?_, ?_⟩)
    · have key : ∀ op ∈ (sanOps C).drop s, ∀ i fg, applyOp S C path fg i op (.text d) = .cont (.text d) := by
        intro op hop i fg
        have hop' : op ∈ (sanOps C).drop 3 := by
          have : (sanOps C).drop s = ((sanOps C).drop 3).drop (s - 3) := by rw [List.drop_drop]; congr 1; omega
          rw [this] at hop
          exact List.mem_of_mem_drop hop
        have hmem : op ∈ [Op.editAttrs, .mergeRel, .dropComments, .dropDoctype] := by
          revert hop'
          unfold sanOps
          generalize C.stripInv = a
          generalize C.forceRel.isEmpty = b
          generalize C.dropComments = c
          generalize C.dropDoctype = e
          cases a <;> cases b <;> cases c <;> cases e <;> simp <;> intro hop' <;>
            first
            | (subst hop'; simp)
            | (rcases hop' with rfl | rfl <;> simp)
            | (rcases hop' with rfl | rfl | rfl <;> simp)
            | (rcases hop' with rfl | rfl | rfl | rfl <;> simp)
        simp only [List.mem_cons, List.not_mem_nil, or_false] at hmem
        rcases hmem with rfl | rfl | rfl | rfl <;> simp [applyOp, isSpecial, nodeName, isCommentName]
      generalize (sanOps C).drop s = ops at key
      generalize (fc || isForeign S.E.U (.text d)) = fg
      clear hs
      induction ops generalizing s with
      | nil => rfl
      | cons op ops ih =>
        rw [runOps, key op (by simp)]
        exact ih (s + 1) (fun o ho => key o (by simp [ho]))
    · intro w _
      have : s ≠ 0 ∧ s ≠ 1 := by omega
      simp [cleanItem, this.1, this.2, descend]

/-- The walk computes `clean`. -/
theorem walkF_clean (S : SanEnv) (C : SanCfg) : ∀ fuel up fc left items, (∀ x ∈ items, ItemOk x) → itemsCost items < fuel →
    walkF S C (sanOps C) fuel up fc left items = left.reverse ++ (cleanItems S C fc items).1 := by
  intro fuel
  induction fuel with
  | zero => intro _ _ _ _ _ h; omega
  | succ fuel ih =>
    intro up fc left items hok hf
    cases items with
    | nil => rw [walkF.eq_def]; simp [cleanItems]
    | cons x rest =>
      obtain ⟨n, s⟩ := x
      rw [walkF.eq_def]
      dsimp only
      have hrest : ∀ x ∈ rest, ItemOk x := fun x hx => hok x (by simp [hx])
      have hcost : itemsCost ((n, s) :: rest) = itemCost (n, s) + itemsCost rest := rfl
      have hpos : 1 ≤ itemCost (n, s) := by
        have := size_pos n; unfold itemCost; simp only []; split <;> omega
      rcases run_item S C (⟨[], none, [], left, rest.map Prod.fst⟩ :: up) fc n s (hok _ (by simp)) with ⟨h, e⟩ | ⟨l, h, hl, hc, e⟩ | ⟨n', h, e⟩
      · rw [h]
        simp [cleanItems, e, cutSeq]
      · rw [h]
        dsimp only
        rw [ih up fc left (l ++ rest) ?_ ?_]
        · rw [cleanItems_append]
          simp [cleanItems, e]
        · intro x hx
          rcases List.mem_append.1 hx with hx | hx
          · exact hl x hx
          · exact hrest x hx
        · rw [itemsCost_append]; omega
      · rw [h]
        dsimp only
        rw [ih up fc _ rest hrest (by omega)]
        rw [cleanItems, e (fun frag kids => walkF S C (sanOps C) fuel (if frag then ⟨c%"#document-fragment", none, [], [], []⟩ ::
          frameOf left (rest.map Prod.fst) n' :: up else frameOf left (rest.map Prod.fst) n' :: up) (fc || isForeign S.E.U n) []
          (kids.map fun k => (k, 0))) ?_]
        · simp [cutSeq]
        · intro b k hk
          rw [ih _ _ [] _ ?_ ?_, cleanItems_zero]
          · simp
          · intro x hx
            obtain ⟨y, -, rfl⟩ := List.mem_map.1 hx
            exact .inl (Nat.zero_le _)
          · rw [itemsCost_map _ 0 (Nat.zero_le _)]; omega

/-- Sanitizing a list of nodes: `clean`, then hardening. -/
theorem sanitizeKids_clean (S : SanEnv) (C : SanCfg) (kids : List Node) :
    sanitizeKids S C kids =
      if C.allowedTags.any rawtextElements.contains then hardenL S.E.U (cleanL S C false false kids).1 else (cleanL S C false false kids).1 := by
  unfold sanitizeKids transformKids
  dsimp only
  rw [List.nil_append, walkF_clean S C (walkFuel kids) [] false [] (kids.map fun k => (k, 0)), cleanItems_zero]
  · simp
  · intro x hx
    obtain ⟨y, -, rfl⟩ := List.mem_map.1 hx
    exact .inl (Nat.zero_le _)
  · rw [itemsCost_map _ 0 (Nat.zero_le _)]; unfold walkFuel; omega

end JH
