import Verif.Model.Sanitize
import Verif.Spec.Sanitize
/-! C24-C27, C31: what survives sanitization. -/
namespace JH
open Spec

theorem runOps_append (S : SanEnv) (C : SanCfg) (path : List Frame) (fg : Bool) : ∀ (a b : List Op) (i : Nat) (n : Node),
    runOps S C path fg i (a ++ b) n =
      match runOps S C path fg i a n with
      | .cont n' => runOps S C path fg (i + a.length) b n'
      | r => r := by
  intro a
  induction a with
  | nil => intro b i n; simp [runOps]
  | cons op a ih =>
    intro b i n
    rw [List.cons_append, runOps, runOps]
    cases applyOp S C path fg i op n with
    | cont n' =>
      dsimp only
      rw [ih, List.length_cons, show i + 1 + a.length = i + (a.length + 1) by omega]
    | done l => rfl
    | cut => rfl

/-- The transforms from the element decision on. -/
def tailOps (C : SanCfg) : List Op :=
  .decide :: ((if C.stripInv then [.stripInvisible] else []) ++ [.editAttrs] ++
    (if C.forceRel.isEmpty then [] else [.mergeRel]) ++ (if C.dropComments then [.dropComments] else []) ++
    (if C.dropDoctype then [.dropDoctype] else []))

theorem sanOps_eq (C : SanCfg) : sanOps C = .dropForeign :: tailOps C := by simp [sanOps, tailOps]

/-- The attributes a kept element ends up with. -/
def postAttrs (S : SanEnv) (C : SanCfg) (name : Str) (as : Attrs) : Attrs :=
  let as1 := if C.stripInv then stripAttrs as else as
  let as2 := sanAttrs S C name as1
  if C.forceRel.isEmpty then as2 else mergeRel S.E.U C.forceRel name as2

/-- A kept node after all transforms. -/
def finish (S : SanEnv) (C : SanCfg) (n : Node) : Node :=
  match n with
  | .text d => .text (if C.stripInv then stripInvisible d else d)
  | n => if isSpecial n then n else setAttrs (postAttrs S C) n

theorem nodeName_setAttrs (f : Str → Attrs → Attrs) (n : Node) : nodeName (setAttrs f n) = nodeName n := by cases n <;> rfl
theorem isSpecial_setAttrs (f : Str → Attrs → Attrs) (n : Node) : isSpecial (setAttrs f n) = isSpecial n := by
  simp [isSpecial, nodeName_setAttrs]
theorem isComment_setAttrs (f : Str → Attrs → Attrs) (n : Node) : isCommentName (setAttrs f n) = isCommentName n := by
  simp [isCommentName, nodeName_setAttrs]

/-- The three transforms that only rewrite. -/
def stripN (n : Node) : Node :=
  match n with
  | .text d => .text (stripInvisible d)
  | n => if isSpecial n then n else setAttrs (fun _ as => stripAttrs as) n
def editN (S : SanEnv) (C : SanCfg) (n : Node) : Node := if isSpecial n then n else setAttrs (sanAttrs S C) n
def mergeN (S : SanEnv) (C : SanCfg) (n : Node) : Node := if isSpecial n then n else setAttrs (mergeRel S.E.U C.forceRel) n

theorem runOps_opt (S : SanEnv) (C : SanCfg) (path : List Frame) (fg : Bool) (op : Op) (g : Node → Node) (b : Bool)
    (h : ∀ i n, applyOp S C path fg i op n = .cont (g n)) (i : Nat) (n : Node) :
    runOps S C path fg i (if b then [op] else []) n = .cont (if b then g n else n) := by
  cases b
  · rfl
  · simp [runOps, h]

theorem finish_eq (S : SanEnv) (C : SanCfg) (n : Node) :
    finish S C n =
      (if C.forceRel.isEmpty then editN S C (if C.stripInv then stripN n else n)
        else mergeN S C (editN S C (if C.stripInv then stripN n else n))) := by
  cases n with
  | elem name ns as kids tpl content =>
    unfold finish
    dsimp only
    by_cases hs : isSpecial (.elem name ns as kids tpl content) = true
    · rw [if_pos hs]
      have h1 : stripN (.elem name ns as kids tpl content) = .elem name ns as kids tpl content := by
        unfold stripN; dsimp only; rw [if_pos hs]
      have h2 : editN S C (.elem name ns as kids tpl content) = .elem name ns as kids tpl content := by
        unfold editN; rw [if_pos hs]
      have h3 : mergeN S C (.elem name ns as kids tpl content) = .elem name ns as kids tpl content := by
        unfold mergeN; rw [if_pos hs]
      cases C.stripInv <;> cases C.forceRel.isEmpty <;> simp [h1, h2, h3]
    · rw [if_neg hs]
      have hn : ∀ as', isSpecial (.elem name ns as' kids tpl content) = false := fun as' => by
        have : isSpecial (.elem name ns as' kids tpl content) = isSpecial (.elem name ns as kids tpl content) := rfl
        rw [this]; simpa using hs
      cases hS : C.stripInv <;> cases hF : C.forceRel.isEmpty <;> simp [stripN, editN, mergeN, hn, setAttrs, postAttrs, hS, hF]
  | text d => cases hS : C.stripInv <;> simp [finish, stripN, editN, mergeN, hS] <;> simp [isSpecial, nodeName]
  | comment d => simp [finish, stripN, editN, mergeN]; simp [isSpecial, nodeName]
  | pi d => simp [finish, stripN, editN, mergeN]; simp [isSpecial, nodeName]
  | doctype a b c => simp [finish, stripN, editN, mergeN]; simp [isSpecial, nodeName]
  | doc k => simp [finish, stripN, editN, mergeN]; simp [isSpecial, nodeName]

theorem nodeName_finish (S : SanEnv) (C : SanCfg) (n : Node) : nodeName (finish S C n) = nodeName n := by
  cases n <;> simp only [finish] <;> first | rfl | (split <;> first | rfl | exact nodeName_setAttrs _ _)

/-- After a whole run of the tail, a node is kept only in its finished form, and only if it may be kept. -/
theorem tail_cont (S : SanEnv) (C : SanCfg) (path : List Frame) (fg : Bool) (i : Nat) (n : Node) :
    runOps S C path fg i (tailOps C) n =
      if isSpecial n = false ∧ decision S.E.U C (nodeName n) ≠ .keep then applyOp S C path fg i .decide n
      else if C.dropComments = true ∧ isCommentName n = true then
        applyOp S C path fg (i + 1 + (if C.stripInv then 1 else 0) + 1 + (if C.forceRel.isEmpty then 0 else 1)) .dropComments n
      else if C.dropDoctype = true ∧ nodeName n = c%"!doctype" then .done []
      else .cont (finish S C n) := by
  unfold tailOps
  by_cases h1 : isSpecial n = false ∧ decision S.E.U C (nodeName n) ≠ .keep
  · rw [if_pos h1, runOps]
    unfold applyOp
    dsimp only
    rw [h1.1]
    simp only [Bool.false_eq_true, if_false]
    cases hd : decision S.E.U C (nodeName n) <;> first | rfl | exact absurd hd h1.2
  · rw [if_neg h1, runOps]
    have hd : applyOp S C path fg i .decide n = .cont n := by
      unfold applyOp
      dsimp only
      by_cases hs : isSpecial n = true
      · rw [if_pos hs]
      · rw [if_neg hs]
        have : decision S.E.U C (nodeName n) = .keep := by
          by_cases hk : decision S.E.U C (nodeName n) = .keep
          · exact hk
          · exact absurd ⟨by simpa using hs, hk⟩ h1
        rw [this]
    rw [hd]
    dsimp only
    have hstrip : ∀ i m, applyOp S C path fg i .stripInvisible m = .cont (stripN m) := by
      intro i m
      cases m <;> simp only [applyOp, stripN] <;> first | rfl | (split <;> rfl)
    have hedit : ∀ i m, applyOp S C path fg i .editAttrs m = .cont (editN S C m) := by
      intro i m; simp only [applyOp, editN]; split <;> rfl
    have hmerge : ∀ i m, applyOp S C path fg i .mergeRel m = .cont (mergeN S C m) := by
      intro i m; simp only [applyOp, mergeN]; split <;> rfl
    rw [runOps_append, runOps_append, runOps_append, runOps_append, runOps_opt S C path fg .stripInvisible stripN _ hstrip]
    dsimp only
    rw [show runOps S C path fg (i + 1 + (if C.stripInv = true then [Op.stripInvisible] else []).length) [.editAttrs] (if C.stripInv = true then stripN n else n) =
      .cont (editN S C (if C.stripInv = true then stripN n else n)) from by simp [runOps, hedit]]
    dsimp only
    rw [show (if C.forceRel.isEmpty = true then ([] : List Op) else [Op.mergeRel]) = (if !C.forceRel.isEmpty then [Op.mergeRel] else []) by
      cases C.forceRel.isEmpty <;> rfl]
    rw [runOps_opt S C path fg .mergeRel (mergeN S C) _ hmerge]
    dsimp only
    have hfin : (if (!C.forceRel.isEmpty) = true then mergeN S C (editN S C (if C.stripInv = true then stripN n else n))
        else editN S C (if C.stripInv = true then stripN n else n)) = finish S C n := by
      rw [finish_eq]; cases C.forceRel.isEmpty <;> rfl
    rw [hfin]
    have hcn : isCommentName (finish S C n) = isCommentName n := by simp [isCommentName, nodeName_finish]
    have hdd : ∀ j, runOps S C path fg j (if C.dropDoctype = true then [Op.dropDoctype] else []) (finish S C n) =
        if C.dropDoctype = true ∧ nodeName n = c%"!doctype" then .done [] else .cont (finish S C n) := by
      intro j
      cases hD : C.dropDoctype with
      | false => simp [runOps]
      | true =>
        by_cases hn : nodeName n = c%"!doctype"
        · simp [runOps, applyOp, nodeName_finish, hn]
        · simp [runOps, applyOp, nodeName_finish, hn]
    cases hC : C.dropComments with
    | false => simp [runOps, hdd]
    | true =>
      by_cases hc : isCommentName n = true
      · have hf : finish S C n = n := by
          have hs : isSpecial n = true := by
            simp only [isCommentName, Bool.or_eq_true, decide_eq_true_eq] at hc
            rcases hc with hc | hc <;> simp [isSpecial, hc]
          cases n with
          | text d => simp [isCommentName, nodeName] at hc
          | elem => simp only [finish]; rw [if_pos hs]
          | _ => simp only [finish]; rw [if_pos hs]
        rw [if_pos (show (true = true ∧ isCommentName n = true) from ⟨rfl, hc⟩), hf]
        rw [if_pos (show true = true from rfl)]
        simp only [runOps]
        have hne : ∀ j, ∃ l, applyOp S C path fg j .dropComments n = .done l := by
          intro j
          simp only [applyOp]
          rw [hc]
          simp only [Bool.not_true, Bool.false_eq_true, if_false]
          split
          · cases n <;> exact ⟨_, rfl⟩
          · exact ⟨_, rfl⟩
        have hidx : i + 1 + (if C.stripInv = true then [Op.stripInvisible] else []).length + [Op.editAttrs].length +
            (if (!C.forceRel.isEmpty) = true then [Op.mergeRel] else []).length =
            i + 1 + (if C.stripInv = true then 1 else 0) + 1 + (if C.forceRel.isEmpty = true then 0 else 1) := by
          cases C.stripInv <;> cases C.forceRel.isEmpty <;> rfl
        simp only [List.length_append]
        rw [show ∀ a b c d : Nat, a + (b + c + d) = a + b + c + d from by omega, hidx]
        obtain ⟨l, hl⟩ := hne (i + 1 + (if C.stripInv = true then 1 else 0) + 1 + (if C.forceRel.isEmpty = true then 0 else 1))
        rw [hl]
      · have hk : ∀ j, applyOp S C path fg j .dropComments (finish S C n) = .cont (finish S C n) := by
          intro j
          simp only [applyOp, hcn]
          simp [hc]
        simp [runOps, hk, hdd, hc]

theorem Spec.Reach.mono {m : Node} {l l' : List Node} (hs : ∀ x ∈ l, x ∈ l') (h : Reach m l) : Reach m l' := by
  cases h with
  | here h => exact .here (hs _ h)
  | kid h1 h2 h3 => exact .kid (hs _ h1) h2 h3
  | content h1 h2 h3 => exact .content (hs _ h1) h2 h3
  | doc h1 h2 => exact .doc (hs _ h1) h2

theorem Spec.Reach.cons {m a : Node} {l : List Node} (h : Reach m (a :: l)) : Reach m [a] ∨ Reach m l := by
  have split : ∀ x, x ∈ a :: l → x ∈ [a] ∨ x ∈ l := by intro x hx; simpa using hx
  cases h with
  | here h => exact (split _ h).elim (fun h => .inl (.here h)) (fun h => .inr (.here h))
  | kid h1 h2 h3 => exact (split _ h1).elim (fun h => .inl (.kid h h2 h3)) (fun h => .inr (.kid h h2 h3))
  | content h1 h2 h3 => exact (split _ h1).elim (fun h => .inl (.content h h2 h3)) (fun h => .inr (.content h h2 h3))
  | doc h1 h2 => exact (split _ h1).elim (fun h => .inl (.doc h h2)) (fun h => .inr (.doc h h2))

theorem Spec.Reach.append {m : Node} {l l' : List Node} (h : Reach m (l ++ l')) : Reach m l ∨ Reach m l' := by
  induction l with
  | nil => exact .inr h
  | cons a l ih =>
    rcases Reach.cons (l := l ++ l') h with h | h
    · exact .inl (h.mono (by simp))
    · exact (ih h).elim (fun h => .inl (h.mono fun x hx => List.mem_cons_of_mem _ hx)) .inr

/-- A node reached in a node whose children were walked is that node, or reached in a walked list. -/
theorem reach_descend {m n : Node} {walk : Bool → List Node → List Node} (h : Reach m [descend walk n]) :
    m = descend walk n ∨ ∃ b kids, Reach m (walk b kids) := by
  have one : ∀ x, x ∈ [descend walk n] → x = descend walk n := by intro x hx; simpa using hx
  cases h with
  | here h => exact .inl (one _ h)
  | kid h1 h2 h3 =>
    have e := one _ h1
    cases n with
    | elem name ns as kids tpl content =>
      simp only [descend] at e
      by_cases hn : name.head? = some '#'
      · rw [if_pos hn] at e
        split at e
        · simp only [Node.elem.injEq] at e; exact absurd (e.1 ▸ hn) h2
        · simp only [Node.elem.injEq] at e; exact absurd (e.1 ▸ hn) h2
      · rw [if_neg hn] at e
        simp only [Node.elem.injEq] at e
        exact .inr ⟨false, kids, e.2.2.2.1 ▸ h3⟩
    | _ => simp [descend] at e
  | content h1 h2 h3 =>
    have e := one _ h1
    cases n with
    | elem name ns as kids tpl content =>
      simp only [descend] at e
      by_cases hn : name.head? = some '#'
      · rw [if_pos hn] at e
        split at e
        · simp only [Node.elem.injEq] at e; exact absurd (e.1 ▸ hn) h2
        · simp only [Node.elem.injEq] at e; exact absurd (e.1 ▸ hn) h2
      · rw [if_neg hn] at e
        simp only [Node.elem.injEq] at e
        obtain ⟨-, -, -, -, ht, hc⟩ := e
        rw [← ht] at hc
        simp only [if_true] at hc
        exact .inr ⟨true, content, hc ▸ h3⟩
    | _ => simp [descend] at e
  | doc h1 h2 =>
    have e := one _ h1
    cases n with
    | elem name ns as kids tpl content =>
      simp only [descend] at e
      split at e
      · split at e <;> simp at e
      · simp at e
    | doc kids => simp only [descend, Node.doc.injEq] at e; exact .inr ⟨false, kids, e ▸ h2⟩
    | _ => simp [descend] at e

/-- Every node in the result of a walk went through the transforms from an admissible start index to the end. -/
theorem walkF_reach (S : SanEnv) (C : SanCfg) (ops : List Op) (I : Node → Nat → Prop) (Q : Node → Prop) (h0 : ∀ n, I n 0)
    (hdone : ∀ path fg s n l, I n s → runOps S C path fg s (ops.drop s) n = .done l → ∀ x ∈ l, I x.1 x.2)
    (hcont : ∀ path fg s n n', I n s → (isForeign S.E.U n = true → fg = true) → runOps S C path fg s (ops.drop s) n = .cont n' →
      ∀ walk, Q (descend walk n')) :
    ∀ fuel up fc left items, (∀ m, Reach m left → Q m) → (∀ x ∈ items, I x.1 x.2) →
      ∀ m, Reach m (walkF S C ops fuel up fc left items) → Q m := by
  intro fuel
  have rev : ∀ (l : List Node), (∀ m, Reach m l → Q m) → ∀ m, Reach m l.reverse → Q m :=
    fun l hl m hm => hl m (hm.mono (by simp))
  induction fuel with
  | zero => intro up fc left items hl _; rw [walkF.eq_def]; exact rev left hl
  | succ fuel ih =>
    intro up fc left items hl hi
    cases items with
    | nil => rw [walkF.eq_def]; exact rev left hl
    | cons x rest =>
      obtain ⟨n, s⟩ := x
      rw [walkF.eq_def]
      dsimp only
      have hn := hi (n, s) (by simp)
      have hrest : ∀ x ∈ rest, I x.1 x.2 := fun x hx => hi x (by simp [hx])
      cases hr : runOps S C (⟨[], none, [], left, rest.map Prod.fst⟩ :: up) (fc || isForeign S.E.U n) s (ops.drop s) n with
      | cut => exact rev left hl
      | done l =>
        refine ih up fc left (l ++ rest) hl ?_
        intro x hx
        rcases List.mem_append.1 hx with hx | hx
        · exact hdone _ _ _ _ _ hn hr x hx
        · exact hrest x hx
      | cont n' =>
        dsimp only
        refine ih up fc _ rest ?_ hrest
        intro m hm
        rcases hm.cons with hm | hm
        · rcases reach_descend hm with rfl | ⟨b, kids, hk⟩
          · exact hcont _ _ _ _ _ hn (by intro h; simp [h]) hr _
          · exact ih _ _ [] _ (by intro m hm; cases hm <;> simp_all) (by
              intro x hx
              obtain ⟨k, -, rfl⟩ := List.mem_map.1 hx
              exact h0 k) m hk
        · exact hl m hm

/-- What transforms put in place of a node goes on at most right after them. -/
theorem user_run (S : SanEnv) (C : SanCfg) (path : List Frame) (fg : Bool) : ∀ (us : List Op) (i : Nat) (n : Node),
    (∃ n', runOps S C path fg i us n = .cont n') ∨ runOps S C path fg i us n = .cut ∨
      ∃ l, runOps S C path fg i us n = .done l ∧ ∀ x ∈ l, x.2 ≤ i + us.length := by
  intro us
  induction us with
  | nil => intro i n; exact .inl ⟨n, rfl⟩
  | cons o us ih =>
    intro i n
    rw [runOps]
    have ho : ∀ l, applyOp S C path fg i o n = .done l → ∀ x ∈ l, x.2 ≤ i + 1 := by
      intro l hl x hx
      cases o with
      | user f =>
        simp only [applyOp] at hl
        split at hl
        · simp at hl
        · simp only [StepR.done.injEq] at hl
          subst hl
          obtain ⟨k, -, rfl⟩ := List.mem_map.1 hx
          dsimp only
          split <;> omega
      | dropForeign =>
        simp only [applyOp] at hl
        split at hl
        · simp at hl
        · split at hl
          · simp at hl
          · simp only [StepR.done.injEq] at hl; subst hl; simp at hx
      | decide =>
        simp only [applyOp] at hl
        split at hl
        · simp at hl
        · split at hl
          · simp at hl
          · simp only [StepR.done.injEq] at hl; subst hl; simp at hx
          · simp only [StepR.done.injEq] at hl; subst hl
            obtain ⟨k, -, rfl⟩ := List.mem_map.1 hx
            dsimp only; omega
          · simp only [StepR.done.injEq] at hl; subst hl
            obtain ⟨k, -, rfl⟩ := List.mem_map.1 hx
            dsimp only; omega
      | stripInvisible =>
        simp only [applyOp] at hl
        split at hl
        · simp at hl
        · split at hl <;> simp at hl
      | editAttrs => simp only [applyOp] at hl; split at hl <;> simp at hl
      | mergeRel => simp only [applyOp] at hl; split at hl <;> simp at hl
      | dropComments =>
        simp only [applyOp] at hl
        split at hl
        · simp at hl
        · split at hl
          · split at hl <;> simp only [StepR.done.injEq] at hl <;> subst hl <;> simp only [List.mem_singleton] at hx <;> subst hx <;> dsimp only <;> omega
          · simp only [StepR.done.injEq] at hl; subst hl; simp at hx
      | dropDoctype =>
        simp only [applyOp] at hl
        split at hl
        · simp only [StepR.done.injEq] at hl; subst hl; simp at hx
        · simp at hl
    cases ha : applyOp S C path fg i o n with
    | cont n' =>
      dsimp only
      rcases ih (i + 1) n' with h | h | ⟨l, hl, hx⟩
      · exact .inl h
      · exact .inr (.inl h)
      · exact .inr (.inr ⟨l, hl, fun x h => by have := hx x h; simp only [List.length_cons]; omega⟩)
    | done l => exact .inr (.inr ⟨l, rfl, fun x hx => by have := ho l ha x hx; simp only [List.length_cons]; omega⟩)
    | cut => exact .inr (.inl rfl)

theorem text_run (S : SanEnv) (C : SanCfg) (path : List Frame) (fg : Bool) : ∀ (ops : List Op), (∀ o ∈ ops, ¬ IsUser o) → ∀ (i : Nat) (d : Str),
    ∃ d', runOps S C path fg i ops (.text d) = .cont (.text d') := by
  intro ops
  induction ops with
  | nil => intro _ i d; exact ⟨d, rfl⟩
  | cons o ops ih =>
    intro h i d
    have : ∃ d', applyOp S C path fg i o (.text d) = .cont (.text d') := by
      cases o with
      | user f => exact (h _ List.mem_cons_self trivial).elim
      | _ => simp [applyOp, isSpecial, isCommentName, nodeName]
    obtain ⟨d', hd⟩ := this
    rw [runOps, hd]
    exact ih (fun o ho => h o (by simp [ho])) (i + 1) d'

theorem tail_not_user (C : SanCfg) : ∀ o ∈ tailOps C, ¬ IsUser o := by
  intro o ho
  simp only [tailOps, List.mem_cons, List.mem_append] at ho
  rcases ho with rfl | (((ho | ho) | ho) | ho) | ho
  · exact id
  · split at ho <;> simp_all [IsUser]
  · simp_all [IsUser]
  · split at ho <;> simp_all [IsUser]
  · split at ho <;> simp_all [IsUser]
  · split at ho <;> simp_all [IsUser]

/-- How a node in the result of a sanitizing walk got there: it is a text, or the finished form of a node that the policy lets pass. -/
def Kept (S : SanEnv) (C : SanCfg) (m : Node) : Prop :=
  (∃ d, m = .text d) ∨ ∃ n1 walk, m = descend walk (finish S C n1) ∧
    (isSpecial n1 = false → decision S.E.U C (nodeName n1) = .keep) ∧ (C.dropComments = true → isCommentName n1 = false) ∧
    (C.dropDoctype = true → nodeName n1 ≠ c%"!doctype")

theorem tail_kept (S : SanEnv) (C : SanCfg) (path : List Frame) (fg : Bool) (i : Nat) (n n' : Node)
    (h : runOps S C path fg i (tailOps C) n = .cont n') :
    n' = finish S C n ∧
    (isSpecial n = false → decision S.E.U C (nodeName n) = .keep) ∧ (C.dropComments = true → isCommentName n = false) ∧
    (C.dropDoctype = true → nodeName n ≠ c%"!doctype") := by
  rw [tail_cont] at h
  split at h
  · rename_i h1
    exfalso
    simp only [applyOp, h1.1] at h
    simp only [Bool.false_eq_true, if_false] at h
    cases hd : decision S.E.U C (nodeName n) <;> rw [hd] at h <;> simp at h
    exact h1.2 hd
  · rename_i h1
    split at h
    · rename_i h2
      exfalso
      simp only [applyOp, h2.2] at h
      simp only [Bool.not_true, Bool.false_eq_true, if_false] at h
      split at h
      · cases n <;> simp at h
      · simp at h
    · rename_i h2
      split at h
      · simp at h
      · rename_i h3
        simp only [StepR.cont.injEq] at h
        refine ⟨h.symm, ?_, ?_, ?_⟩
        · intro hs
          by_cases hk : decision S.E.U C (nodeName n) = .keep
          · exact hk
          · exact absurd ⟨hs, hk⟩ h1
        · intro hc
          cases hcn : isCommentName n with
          | false => rfl
          | true => exact absurd ⟨hc, hcn⟩ h2
        · intro hd hn; exact h3 ⟨hd, hn⟩

theorem tail_done (S : SanEnv) (C : SanCfg) (path : List Frame) (fg : Bool) (i : Nat) (n : Node) (l : List (Node × Nat))
    (h : runOps S C path fg i (tailOps C) n = .done l) : ∀ x ∈ l, x.2 = i ∨ ∃ d, x.1 = .text d := by
  rw [tail_cont] at h
  split at h
  · rename_i h1
    simp only [applyOp, h1.1] at h
    simp only [Bool.false_eq_true, if_false] at h
    intro x hx
    cases hd : decision S.E.U C (nodeName n) <;> rw [hd] at h <;> simp only [StepR.done.injEq, reduceCtorEq] at h <;> subst h
    · simp at hx
    · obtain ⟨k, -, rfl⟩ := List.mem_map.1 hx; exact .inl rfl
    · obtain ⟨k, -, rfl⟩ := List.mem_map.1 hx; exact .inl rfl
  · split at h
    · rename_i h2
      simp only [applyOp, h2.2] at h
      simp only [Bool.not_true, Bool.false_eq_true, if_false] at h
      intro x hx
      split at h
      · cases n <;> simp only [StepR.done.injEq] at h <;> subst h <;> simp only [List.mem_singleton] at hx <;> subst hx <;> exact .inr ⟨_, rfl⟩
      · simp only [StepR.done.injEq] at h; subst h; simp at hx
    · split at h
      · simp only [StepR.done.injEq] at h; subst h; simp
      · simp at h

theorem tail_cut (S : SanEnv) (C : SanCfg) (path : List Frame) (fg : Bool) (i : Nat) (n : Node) :
    runOps S C path fg i (tailOps C) n ≠ .cut := by
  rw [tail_cont]
  split
  · rename_i h1
    simp only [applyOp, h1.1]
    simp only [Bool.false_eq_true, if_false]
    cases decision S.E.U C (nodeName n) <;> simp
  · split
    · rename_i h2
      simp only [applyOp, h2.2]
      simp only [Bool.not_true, Bool.false_eq_true, if_false]
      split
      · cases n <;> simp
      · simp
    · split <;> simp

/-- The transforms from an admissible start index on. -/
theorem drop_ops (C : SanCfg) (pre : List Op) (s : Nat) :
    (s ≤ pre.length → (pre ++ sanOps C).drop s = pre.drop s ++ (.dropForeign :: tailOps C)) ∧
    (s = pre.length + 1 → (pre ++ sanOps C).drop s = tailOps C) ∧
    (pre.length + 1 < s → ∀ o ∈ (pre ++ sanOps C).drop s, ¬ IsUser o) := by
  rw [sanOps_eq]
  refine ⟨fun h => by rw [List.drop_append_of_le_length h], ?_, ?_⟩
  · intro h
    rw [h, List.drop_append, List.drop_of_length_le (by omega)]
    simp
  · intro h o ho
    rw [List.drop_append, List.drop_of_length_le (by omega), List.nil_append,
      show s - pre.length = (s - pre.length - 1) + 1 by omega, List.drop_succ_cons] at ho
    exact tail_not_user C o (List.mem_of_mem_drop ho)

/-- Whatever transforms come before: every node in the result of the walk is kept by the policy. -/
theorem walk_kept (S : SanEnv) (C : SanCfg) (pre : List Op) (fuel : Nat) (up : List Frame) (fc : Bool)
    (kids : List Node) (m : Node) (hm : Reach m (walkF S C (pre ++ sanOps C) fuel up fc [] (kids.map fun k => (k, 0)))) :
    Kept S C m := by
  refine walkF_reach S C (pre ++ sanOps C) (fun n s => s ≤ pre.length + 1 ∨ ∃ d, n = .text d) (Kept S C) (fun _ => .inl (by omega)) ?_ ?_
    fuel up fc [] _ (by intro m hm; cases hm <;> simp_all) (by
      intro x hx
      obtain ⟨k, -, rfl⟩ := List.mem_map.1 hx
      exact .inl (by dsimp only; omega)) m hm
  · intro path fg s n l hI h x hx
    obtain ⟨d1, d2, d3⟩ := drop_ops C pre s
    by_cases h1 : s ≤ pre.length
    · rw [d1 h1, runOps_append] at h
      rcases user_run S C path fg (pre.drop s) s n with ⟨n1, hn1⟩ | hcut | ⟨l', hl', hx'⟩
      · rw [hn1] at h
        dsimp only at h
        rw [List.length_drop, show s + (pre.length - s) = pre.length by omega, runOps] at h
        cases ha : applyOp S C path fg pre.length .dropForeign n1 with
        | cont n2 =>
          rw [ha] at h
          dsimp only at h
          rcases tail_done S C path fg _ n2 l h x hx with h | h
          · exact .inl (by omega)
          · exact .inr h
        | done l2 =>
          rw [ha] at h
          simp only [StepR.done.injEq] at h
          subst h
          simp only [applyOp] at ha
          split at ha
          · simp at ha
          · split at ha
            · simp at ha
            · simp only [StepR.done.injEq] at ha; subst ha; simp at hx
        | cut => rw [ha] at h; simp at h
      · rw [hcut] at h; simp at h
      · rw [hl'] at h
        simp only [StepR.done.injEq] at h
        subst h
        have := hx' x hx
        rw [List.length_drop] at this
        exact .inl (by omega)
    · by_cases h2 : s = pre.length + 1
      · rw [d2 h2] at h
        rcases tail_done S C path fg _ n l h x hx with h | h
        · exact .inl (by omega)
        · exact .inr h
      · rcases hI with hI | ⟨d, rfl⟩
        · omega
        · obtain ⟨d', hd⟩ := text_run S C path fg _ (d3 (by omega)) s d
          rw [hd] at h; simp at h
  · intro path fg s n n' hI hfor h walk
    obtain ⟨d1, d2, d3⟩ := drop_ops C pre s
    have fin : ∀ i n1, runOps S C path fg i (tailOps C) n1 = .cont n' → Kept S C (descend walk n') := by
      intro i n1 ht
      obtain ⟨e, h1, h2, h3⟩ := tail_kept S C path fg i n1 n' ht
      exact .inr ⟨n1, walk, by rw [e], h1, h2, h3⟩
    by_cases h1 : s ≤ pre.length
    · rw [d1 h1, runOps_append] at h
      split at h
      · rename_i n1 hn1
        rw [runOps] at h
        split at h
        · exact fin _ _ h
        · rename_i h4; rw [h] at h4; exact absurd rfl (h4 n')
      · rename_i h4; rw [h] at h4; exact absurd rfl (h4 n')
    · by_cases h2 : s = pre.length + 1
      · rw [d2 h2] at h; exact fin _ _ h
      · rcases hI with hI | ⟨d, rfl⟩
        · omega
        · obtain ⟨d', hd⟩ := text_run S C path fg _ (d3 (by omega)) s d
          rw [hd] at h
          simp only [StepR.cont.injEq] at h
          subst h
          exact .inl ⟨d', rfl⟩

end JH
