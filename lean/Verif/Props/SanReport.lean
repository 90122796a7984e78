import Verif.Props.SanKeep
import Verif.Model.Report
/-! The reports of the tree sanitizer, as a recursive function on trees. -/
namespace JH
open Spec

theorem runOpsR_fst (S : SanEnv) (C : SanCfg) (path : List Frame) (fg : Bool) : ∀ (ops : List Op) (i : Nat) (n : Node),
    (runOpsR S C path fg i ops n).1 = runOps S C path fg i ops n := by
  intro ops
  induction ops with
  | nil => intro i n; rfl
  | cons op ops ih =>
    intro i n
    simp only [runOpsR, runOps]
    cases applyOp S C path fg i op n with
    | cont n' => exact ih _ _
    | done l => rfl
    | cut => rfl

theorem descendR_fst (w : Bool → List Node → List Node × List Finding) (n : Node) :
    (descendR w n).1 = descend (fun b l => (w b l).1) n := by
  cases n with
  | elem name ns as kids tpl content =>
    simp only [descendR, descend]
    split
    · split <;> rfl
    · rfl
  | _ => rfl

theorem walkR_fst (S : SanEnv) (C : SanCfg) (ops : List Op) : ∀ (fuel : Nat) (up : List Frame) (fc : Bool) (left : List Node) (items : List (Node × Nat)),
    (walkR S C ops fuel up fc left items).1 = walkF S C ops fuel up fc left items := by
  intro fuel
  induction fuel with
  | zero => intro up fc left items; rfl
  | succ fuel ih =>
    intro up fc left items
    cases items with
    | nil => rw [walkR.eq_def, walkF.eq_def]
    | cons x rest =>
      obtain ⟨n, s⟩ := x
      rw [walkR.eq_def, walkF.eq_def]
      dsimp only
      rw [runOpsR_fst]
      cases runOps S C (⟨[], none, [], left, rest.map Prod.fst⟩ :: up) (fc || isForeign S.E.U n) s (ops.drop s) n with
      | cut => rfl
      | done l => dsimp only; rw [ih]
      | cont n' =>
        dsimp only
        rw [ih, descendR_fst]
        simp only [ih]

/-! ### The reports as a recursive function -/

/-- Reports of consecutive nodes: none after a cut. -/
def seqF (a : List Node × Bool) (fa fb : List Finding) : List Finding := if a.2 then fa else fa ++ fb

/-- The report about a text that is put in for a tag. -/
def textF (C : SanCfg) (d : Str) : List Finding := if C.stripInv = true ∧ stripInvisible d ≠ d then [.invisibleText] else []

/-- The same, for the text of a tag. -/
def tagTextF (C : SanCfg) (t : Option Str) : List Finding :=
  match t with
  | none => []
  | some d => if d.isEmpty then [] else textF C d

/-- The report about a dropped comment. -/
def commentF (C : SanCfg) : List Finding := if C.handling = .escape then [] else [.comment]

/-- The reports about the attributes of a kept element. -/
def attrsF (S : SanEnv) (C : SanCfg) (name : Str) (as : Attrs) : List Finding :=
  (if C.stripInv then invisibleFindings as else []) ++ editFindings S C name (if C.stripInv then stripAttrs as else as)

mutual
/-- What is reported about a node and what is below it (arguments as for `clean`). -/
def reps (S : SanEnv) (C : SanCfg) (hoist fc : Bool) : Node → List Finding
  | .elem name ns as kids tpl content =>
    let n := Node.elem name ns as kids tpl content
    let foreign := fc || isForeign S.E.U n
    if isSpecial n then
      if C.dropComments = true ∧ isCommentName n = true then commentF C
      else if C.dropDoctype = true ∧ nodeName n = c%"!doctype" then [.doctype]
      else if name.head? = some '#' then
        (if name = c%"#text" || isCommentName n then [] else repsL S C false foreign kids)
      else repsL S C false foreign kids ++ (if tpl then repsL S C false foreign content else [])
    else if !hoist && foreign then [.foreign (S.E.U.lower name)]
    else match decision S.E.U C name with
      | .keep => attrsF S C name as ++ (repsL S C false foreign kids ++ (if tpl then repsL S C false foreign content else []))
      | .drop => tagFindings S.E.U C name
      | .unwrap =>
        tagFindings S.E.U C name ++ seqF (cleanL S C true fc kids) (repsL S C true fc kids) (if tpl then repsL S C true fc content else [])
      | .escape =>
        tagFindings S.E.U C name ++ (tagTextF C (S.startText n) ++
          seqF (cutSeq (cleanL S C true fc kids) (if tpl then cleanL S C true fc content else ([], false)))
            (seqF (cleanL S C true fc kids) (repsL S C true fc kids) (if tpl then repsL S C true fc content else []))
            (tagTextF C (S.endText n)))
  | .doc kids => repsL S C false fc kids
  | .text d => textF C d
  | .comment _ => if C.dropComments = true then commentF C else []
  | .pi _ => if C.dropComments = true then commentF C else []
  | .doctype _ _ _ => if C.dropDoctype = true then [.doctype] else []
/-- The same for consecutive siblings. -/
def repsL (S : SanEnv) (C : SanCfg) (hoist fc : Bool) : List Node → List Finding
  | [] => []
  | n :: ns => seqF (clean S C hoist fc n) (reps S C hoist fc n) (repsL S C hoist fc ns)
end

/-- The items of the walk. -/
def repItem (S : SanEnv) (C : SanCfg) (fc : Bool) (x : Node × Nat) : List Finding :=
  if x.2 = 0 then reps S C false fc x.1 else if x.2 = 1 then reps S C true fc x.1 else []

def repItems (S : SanEnv) (C : SanCfg) (fc : Bool) : List (Node × Nat) → List Finding
  | [] => []
  | x :: xs => seqF (cleanItem S C fc x) (repItem S C fc x) (repItems S C fc xs)

theorem seqF_assoc (a b : List Node × Bool) (fa fb fc : List Finding) : seqF (cutSeq a b) (seqF a fa fb) fc = seqF a fa (seqF b fb fc) := by
  unfold seqF cutSeq; cases ha : a.2 <;> cases hb : b.2 <;> simp [ha, hb]

theorem seqF_nil (a : List Node × Bool) (fa : List Finding) : seqF a fa [] = fa := by unfold seqF; split <;> simp
theorem nil_seqF (fb : List Finding) : seqF ([], false) [] fb = fb := by simp [seqF]

theorem repItems_append (S : SanEnv) (C : SanCfg) (fc : Bool) (a b : List (Node × Nat)) :
    repItems S C fc (a ++ b) = seqF (cleanItems S C fc a) (repItems S C fc a) (repItems S C fc b) := by
  induction a with
  | nil => simp [cleanItems, repItems, nil_seqF]
  | cons x xs ih => simp only [List.cons_append, repItems, ih, cleanItems, seqF_assoc]

theorem repItems_zero (S : SanEnv) (C : SanCfg) (fc : Bool) (l : List Node) :
    repItems S C fc (l.map fun k => (k, 0)) = repsL S C false fc l := by
  induction l with
  | nil => simp [repItems, repsL]
  | cons x xs ih => simp [repItems, repsL, ih, repItem, cleanItem]

theorem repItems_one (S : SanEnv) (C : SanCfg) (fc : Bool) (l : List Node) :
    repItems S C fc (l.map fun k => (k, 1)) = repsL S C true fc l := by
  induction l with
  | nil => simp [repItems, repsL]
  | cons x xs ih => simp [repItems, repsL, ih, repItem, cleanItem]

theorem repsL_append (S : SanEnv) (C : SanCfg) (h fc : Bool) (a b : List Node) :
    repsL S C h fc (a ++ b) = seqF (cleanL S C h fc a) (repsL S C h fc a) (repsL S C h fc b) := by
  induction a with
  | nil => simp [repsL, cleanL, nil_seqF]
  | cons x xs ih => simp only [List.cons_append, repsL, ih, cleanL, seqF_assoc]

theorem repsL_textNode (S : SanEnv) (C : SanCfg) (fc : Bool) (t : Option Str) : repsL S C true fc (textNode? t) = tagTextF C t := by
  cases t with
  | none => simp [textNode?, repsL, tagTextF]
  | some s =>
    by_cases hs : s.isEmpty
    · simp [textNode?, hs, repsL, tagTextF]
    · simp [textNode?, hs, repsL, tagTextF, reps, seqF_nil]

theorem runOpsR_opt (S : SanEnv) (C : SanCfg) (path : List Frame) (fg : Bool) (op : Op) (g : Node → Node) (b : Bool)
    (h : ∀ i n, applyOp S C path fg i op n = .cont (g n)) (ops : List Op) (i : Nat) (n : Node) :
    ∃ j, (runOpsR S C path fg i ((if b then [op] else []) ++ ops) n).2 =
      (if b then opFindings S C fg op n else []) ++ (runOpsR S C path fg j ops (if b then g n else n)).2 := by
  cases b with
  | false => exact ⟨i, rfl⟩
  | true =>
    refine ⟨i + 1, ?_⟩
    simp only [if_true, List.cons_append, List.nil_append, runOpsR, h]

/-- The reports of the transforms after the first, on one node. -/
theorem tailF (S : SanEnv) (C : SanCfg) (path : List Frame) (fg : Bool) (i : Nat) (n : Node) :
    (runOpsR S C path fg i (tailOps C) n).2 =
      if isSpecial n = false ∧ decision S.E.U C (nodeName n) ≠ .keep then tagFindings S.E.U C (nodeName n)
      else (match n with
        | .text d => textF C d
        | .elem name _ as _ _ _ => if isSpecial n then [] else attrsF S C name as
        | _ => []) ++
        (if C.dropComments = true ∧ isCommentName n = true then commentF C
         else if C.dropDoctype = true ∧ nodeName n = c%"!doctype" then [.doctype] else []) := by
  unfold tailOps
  by_cases h1 : isSpecial n = false ∧ decision S.E.U C (nodeName n) ≠ .keep
  · rw [if_pos h1, runOpsR]
    unfold applyOp
    dsimp only
    rw [h1.1]
    simp only [Bool.false_eq_true, if_false]
    cases hd : decision S.E.U C (nodeName n) <;> first | exact absurd hd h1.2 | simp [opFindings, h1.1]
  · rw [if_neg h1, runOpsR]
    have hd : applyOp S C path fg i .decide n = .cont n := by
      unfold applyOp
      dsimp only
      by_cases hs : isSpecial n = true
      · rw [if_pos hs]
      · rw [if_neg hs]
        have : decision S.E.U C (nodeName n) = .keep := by
          by_cases hk : decision S.E.U C (nodeName n) = .keep
          · exact hk
          · exact absurd ⟨by simpa using hs, hk⟩ h1
        rw [this]
    have hdf : opFindings S C fg .decide n = [] := by
      unfold opFindings
      dsimp only
      by_cases hs : isSpecial n = true
      · rw [if_pos hs]
      · rw [if_neg hs]
        have : decision S.E.U C (nodeName n) = .keep := by
          by_cases hk : decision S.E.U C (nodeName n) = .keep
          · exact hk
          · exact absurd ⟨by simpa using hs, hk⟩ h1
        have := decision_keep this
        unfold tagFindings
        rw [if_pos (by simpa using this)]
    rw [hd, hdf]
    dsimp only
    have hstrip : ∀ i m, applyOp S C path fg i .stripInvisible m = .cont (stripN m) := by
      intro i m
      cases m <;> simp only [applyOp, stripN] <;> first | rfl | (split <;> rfl)
    have hedit : ∀ i m, applyOp S C path fg i .editAttrs m = .cont (editN S C m) := by
      intro i m; simp only [applyOp, editN]; split <;> rfl
    have hmerge : ∀ i m, applyOp S C path fg i .mergeRel m = .cont (mergeN S C m) := by
      intro i m; simp only [applyOp, mergeN]; split <;> rfl
    rw [show (if C.forceRel.isEmpty = true then ([] : List Op) else [Op.mergeRel]) = (if !C.forceRel.isEmpty then [Op.mergeRel] else []) by
      cases C.forceRel.isEmpty <;> rfl]
    rw [List.append_assoc, List.append_assoc, List.append_assoc]
    obtain ⟨j1, e1⟩ := runOpsR_opt S C path fg .stripInvisible stripN C.stripInv hstrip
      ([Op.editAttrs] ++ ((if !C.forceRel.isEmpty then [Op.mergeRel] else []) ++ ((if C.dropComments then [Op.dropComments] else []) ++ if C.dropDoctype then [Op.dropDoctype] else []))) (i + 1) n
    obtain ⟨j2, e2⟩ := runOpsR_opt S C path fg .editAttrs (editN S C) true hedit
      ((if !C.forceRel.isEmpty then [Op.mergeRel] else []) ++ ((if C.dropComments then [Op.dropComments] else []) ++ if C.dropDoctype then [Op.dropDoctype] else [])) j1 (if C.stripInv = true then stripN n else n)
    obtain ⟨j3, e3⟩ := runOpsR_opt S C path fg .mergeRel (mergeN S C) (!C.forceRel.isEmpty) hmerge
      ((if C.dropComments then [Op.dropComments] else []) ++ if C.dropDoctype then [Op.dropDoctype] else []) j2 (editN S C (if C.stripInv = true then stripN n else n))
    simp only [if_true] at e2
    rw [e1, e2, e3]
    have hfin : (if (!C.forceRel.isEmpty) = true then mergeN S C (editN S C (if C.stripInv = true then stripN n else n))
        else editN S C (if C.stripInv = true then stripN n else n)) = finish S C n := by
      rw [finish_eq]; cases C.forceRel.isEmpty <;> rfl
    rw [hfin]
    have hcn : isCommentName (finish S C n) = isCommentName n := by simp [isCommentName, nodeName_finish]
    have hlast : (runOpsR S C path fg j3 ((if C.dropComments = true then [Op.dropComments] else []) ++ if C.dropDoctype = true then [Op.dropDoctype] else []) (finish S C n)).2 =
        (if C.dropComments = true ∧ isCommentName n = true then commentF C
         else if C.dropDoctype = true ∧ nodeName n = c%"!doctype" then [.doctype] else []) := by
      have hdd : ∀ j, (runOpsR S C path fg j (if C.dropDoctype = true then [Op.dropDoctype] else []) (finish S C n)).2 =
          if C.dropDoctype = true ∧ nodeName n = c%"!doctype" then [.doctype] else [] := by
        intro j
        cases hD : C.dropDoctype with
        | false => simp [runOpsR]
        | true =>
          by_cases hn : nodeName n = c%"!doctype"
          · simp [runOpsR, applyOp, opFindings, nodeName_finish, hn]
          · simp [runOpsR, applyOp, opFindings, nodeName_finish, hn]
      cases hC : C.dropComments with
      | false => simpa using hdd j3
      | true =>
        by_cases hc : isCommentName n = true
        · rw [if_pos (show (true = true ∧ isCommentName n = true) from ⟨rfl, hc⟩)]
          have hne : ∃ l, applyOp S C path fg j3 .dropComments (finish S C n) = .done l := by
            simp only [applyOp]
            rw [hcn, hc]
            simp only [Bool.not_true, Bool.false_eq_true, if_false]
            split
            · cases finish S C n <;> exact ⟨_, rfl⟩
            · exact ⟨_, rfl⟩
          obtain ⟨l, hl⟩ := hne
          simp only [if_true, List.cons_append, List.nil_append, runOpsR, hl, opFindings, hcn, hc, commentF]
          rfl
        · have hk : applyOp S C path fg j3 .dropComments (finish S C n) = .cont (finish S C n) := by
            simp only [applyOp, hcn]
            simp [hc]
          simp [runOpsR, hk, hdd, hc, opFindings, hcn]
    rw [hlast]
    have hm : (if (!C.forceRel.isEmpty) = true then opFindings S C fg .mergeRel (editN S C (if C.stripInv = true then stripN n else n)) else []) = [] := by
      split <;> rfl
    rw [hm]
    simp only [List.nil_append, ← List.append_assoc]
    congr 1
    cases n with
    | text d => cases hsi : C.stripInv <;> simp [opFindings, textF, hsi, stripN]
    | elem name ns as kids tpl content =>
      by_cases hs : isSpecial (.elem name ns as kids tpl content) = true
      · have : (if C.stripInv = true then stripN (.elem name ns as kids tpl content) else (.elem name ns as kids tpl content)) = .elem name ns as kids tpl content := by
          simp [stripN, hs]
        rw [this]
        simp [opFindings, hs]
      · have : ∀ f : Attrs → Attrs, isSpecial (.elem name ns (f as) kids tpl content) = false := by
          intro f
          exact Bool.eq_false_iff.2 hs
        simp only [Bool.not_eq_true] at hs
        cases hsi : C.stripInv <;> simp [opFindings, stripN, hs, setAttrs, attrsF, this stripAttrs, hsi]
    | doc k => cases hsi : C.stripInv <;> simp [opFindings, stripN, isSpecial, nodeName]
    | comment k => cases hsi : C.stripInv <;> simp [opFindings, stripN, isSpecial, nodeName]
    | pi k => cases hsi : C.stripInv <;> simp [opFindings, stripN, isSpecial, nodeName]
    | doctype a b c => cases hsi : C.stripInv <;> simp [opFindings, stripN, isSpecial, nodeName]

/-- The reports of one run of the transforms on an item, compared with `reps`. -/
def RunOkF (S : SanEnv) (C : SanCfg) (fc : Bool) (x : Node × Nat) (r : StepR) (fs : List Finding) : Prop :=
  (r = .cut → repItem S C fc x = fs) ∧
  (∀ l, r = .done l → repItem S C fc x = fs ++ repItems S C fc l) ∧
  (∀ n', r = .cont n' → ∀ (w : Bool → List Node → List Node × List Finding),
    (∀ b k, 2 * Node.sizeL k + 2 ≤ itemCost x → (w b k).2 = repsL S C false (fc || isForeign S.E.U x.1) k) →
    repItem S C fc x = fs ++ (descendR w n').2)

theorem run_tailF (S : SanEnv) (C : SanCfg) (path : List Frame) (fc : Bool) (n : Node) :
    RunOkF S C fc (n, 1) (runOps S C path (fc || isForeign S.E.U n) 1 (tailOps C) n)
      (runOpsR S C path (fc || isForeign S.E.U n) 1 (tailOps C) n).2 := by
  rw [tail_cont, tailF]
  have hcl : repItem S C fc (n, 1) = reps S C true fc n := by simp [repItem]
  by_cases h1 : isSpecial n = false ∧ decision S.E.U C (nodeName n) ≠ .keep
  · rw [if_pos h1, if_pos h1]
    obtain ⟨name, ns, as, kids, tpl, content, rfl⟩ := nodeName_ne_hash h1.1
    have hk : isSpecial (.elem name ns as kids tpl content) = false := h1.1
    have hd : decision S.E.U C (nodeName (.elem name ns as kids tpl content)) = decision S.E.U C name := rfl
    have hnn : nodeName (.elem name ns as kids tpl content) = name := rfl
    have hh : repsL S C true fc (hoisted (.elem name ns as kids tpl content)) =
        seqF (cleanL S C true fc kids) (repsL S C true fc kids) (if tpl then repsL S C true fc content else []) := by
      cases tpl
      · simp [hoisted, seqF_nil]
      · simp [hoisted, repsL_append]
    have hh2 : cleanL S C true fc (hoisted (.elem name ns as kids tpl content)) =
        cutSeq (cleanL S C true fc kids) (if tpl then cleanL S C true fc content else ([], false)) := by
      cases tpl
      · simp [hoisted, cutSeq_nil]
      · simp [hoisted, cleanL_append]
    simp only [applyOp, hk, hd]
    rw [hnn]
    cases hdec : decision S.E.U C name with
    | keep => rw [hd] at h1; exact absurd hdec h1.2
    | drop =>
      refine ⟨by simp, ?_, by simp⟩
      intro l hl
      simp only [Bool.false_eq_true, if_false, StepR.done.injEq] at hl
      subst hl
      rw [hcl]
      simp [reps, hk, hdec, repItems]
    | unwrap =>
      refine ⟨by simp, ?_, by simp⟩
      intro l hl
      simp only [Bool.false_eq_true, if_false, StepR.done.injEq] at hl
      subst hl
      rw [hcl, repItems_one, hh]
      simp [reps, hk, hdec]
    | escape =>
      refine ⟨by simp, ?_, by simp⟩
      intro l hl
      simp only [Bool.false_eq_true, if_false, StepR.done.injEq] at hl
      subst hl
      rw [hcl, repItems_one, repsL_append, repsL_append, hh, cleanL_append, hh2, cleanL_textNode, repsL_textNode, repsL_textNode, seqF_assoc]
      simp [reps, hk, hdec, seqF]
  · rw [if_neg h1, if_neg h1]
    have hkeep : isSpecial n = false → decision S.E.U C (nodeName n) = .keep := by
      intro hs
      by_cases hd : decision S.E.U C (nodeName n) = .keep
      · exact hd
      · exact absurd ⟨hs, hd⟩ h1
    by_cases h2 : C.dropComments = true ∧ isCommentName n = true
    · rw [if_pos h2, if_pos h2]
      have hs : isSpecial n = true := by
        have := h2.2
        simp only [isCommentName, Bool.or_eq_true, decide_eq_true_eq] at this
        rcases this with hc | hc <;> simp [isSpecial, hc]
      have hcom : reps S C true fc n = commentF C := by
        cases n with
        | elem => simp only [reps]; rw [if_pos hs, if_pos h2]
        | doc => simp [isCommentName, nodeName] at h2
        | text => simp [isCommentName, nodeName] at h2
        | doctype => simp [isCommentName, nodeName] at h2
        | comment => simp only [reps]; rw [if_pos h2.1]
        | pi => simp only [reps]; rw [if_pos h2.1]
      have hpre : (match n with
        | .text d => textF C d
        | .elem name _ as _ _ _ => if isSpecial n then [] else attrsF S C name as
        | _ => []) = [] := by
        cases n with
        | text => simp [isCommentName, nodeName] at h2
        | elem => dsimp only; rw [if_pos hs]
        | _ => rfl
      rw [hpre, List.nil_append]
      have hone : ∀ (z : Nat) (x : Node), 2 ≤ z → repItems S C fc [(x, z)] = [] := by
        intro z x hz
        have : z ≠ 0 ∧ z ≠ 1 := by omega
        simp [repItems, repItem, seqF_nil, this.1, this.2]
      refine ⟨?_, ?_, ?_⟩
      · intro _; rw [hcl, hcom]
      · intro l hl
        have : repItems S C fc l = [] := by
          simp only [applyOp, h2.2] at hl
          rw [if_neg (by simp)] at hl
          split at hl
          · cases n <;> (simp only [StepR.done.injEq] at hl; subst hl; apply hone; omega)
          · simp only [StepR.done.injEq] at hl; subst hl; rfl
        rw [hcl, hcom, this, List.append_nil]
      · intro n' hn'
        simp only [applyOp, h2.2] at hn'
        rw [if_neg (by simp)] at hn'
        split at hn'
        · cases n <;> simp at hn'
        · simp at hn'
    · rw [if_neg h2, if_neg h2]
      by_cases h3 : C.dropDoctype = true ∧ nodeName n = c%"!doctype"
      · rw [if_pos h3, if_pos h3]
        have hs : isSpecial n = true := by simp [isSpecial, h3.2]
        refine ⟨by simp, ?_, by simp⟩
        intro l hl
        simp only [StepR.done.injEq] at hl
        subst hl
        rw [hcl]
        cases n with
        | elem => simp only [reps]; rw [if_pos hs, if_neg h2, if_pos h3]; simp [hs, repItems]
        | doc => simp [nodeName] at h3
        | text => simp [nodeName] at h3
        | doctype => simp only [reps]; rw [if_pos h3.1]; rfl
        | comment => simp [nodeName] at h3
        | pi => simp [nodeName] at h3
      · rw [if_neg h3, if_neg h3]
        refine ⟨by simp, by simp, ?_⟩
        intro n' hn' w hw
        simp only [StepR.cont.injEq] at hn'
        subst hn'
        rw [hcl, List.append_nil]
        cases n with
        | elem name ns as kids tpl content =>
          have hk1 : (w false kids).2 = repsL S C false (fc || isForeign S.E.U (.elem name ns as kids tpl content)) kids := by
            apply hw; simp only [itemCost, Node.size]; simp; omega
          have hk2 : (w true content).2 = repsL S C false (fc || isForeign S.E.U (.elem name ns as kids tpl content)) content := by
            apply hw; simp only [itemCost, Node.size]; simp; omega
          simp only [reps]
          by_cases hs : isSpecial (.elem name ns as kids tpl content) = true
          · rw [if_pos hs, if_neg h2, if_neg h3, if_pos hs]
            simp only [finish]
            rw [if_pos hs]
            simp only [descendR]
            by_cases hh : name.head? = some '#'
            · rw [if_pos hh, if_pos hh]
              by_cases ht : (decide (name = c%"#text") || isCommentName (.elem name ns as kids tpl content)) = true
              · rw [if_pos ht, if_pos ht]; rfl
              · rw [if_neg ht, if_neg ht]; exact hk1.symm
            · rw [if_neg hh, if_neg hh]
              simp only [hk1, hk2]; rfl
          · rw [if_neg hs, if_neg hs]
            have hd : decision S.E.U C name = .keep := hkeep (by simpa using hs)
            simp only [finish]
            rw [if_neg hs]
            simp only [setAttrs, descendR, hd]
            have hh : ¬ name.head? = some '#' := by
              intro hh; apply hs; simp [isSpecial, nodeName, hh]
            rw [if_neg hh]
            simp only [hk1, hk2]
            simp
        | doc kids =>
          have hk1 : (w false kids).2 = repsL S C false fc kids := by
            have := hw false kids (by simp only [itemCost, Node.size]; simp; omega)
            simpa [isForeign] using this
          simp only [reps, finish]
          rw [if_pos (by simp [isSpecial, nodeName])]
          simp only [descendR, hk1]
          rfl
        | text d => simp only [reps, finish, descendR]; rw [List.append_nil]
        | comment d =>
          have : C.dropComments ≠ true := fun e => h2 ⟨e, by simp [isCommentName, nodeName]⟩
          simp only [reps, finish]; rw [if_neg this, if_pos (by simp [isSpecial, nodeName])]; rfl
        | pi d =>
          have : C.dropComments ≠ true := fun e => h2 ⟨e, by simp [isCommentName, nodeName]⟩
          simp only [reps, finish]; rw [if_neg this, if_pos (by simp [isSpecial, nodeName])]; rfl
        | doctype a b c =>
          have : C.dropDoctype ≠ true := fun e => h3 ⟨e, by simp [nodeName]⟩
          simp only [reps, finish]; rw [if_neg this, if_pos (by simp [isSpecial, nodeName])]; rfl

theorem reps_hoist (S : SanEnv) (C : SanCfg) (fc : Bool) (n : Node) (h : isSpecial n = true ∨ (fc || isForeign S.E.U n) = false) :
    reps S C false fc n = reps S C true fc n := by
  cases n with
  | elem name ns as kids tpl content =>
    simp only [reps]
    rcases h with h | h
    · rw [if_pos h, if_pos h]
    · simp only [h]; rfl
  | _ => simp only [reps]

theorem run_itemF (S : SanEnv) (C : SanCfg) (path : List Frame) (fc : Bool) (n : Node) (s : Nat) (hok : ItemOk (n, s)) :
    RunOkF S C fc (n, s) (runOps S C path (fc || isForeign S.E.U n) s ((sanOps C).drop s) n)
      (runOpsR S C path (fc || isForeign S.E.U n) s ((sanOps C).drop s) n).2 := by
  rcases hok with hs | ⟨hs, d, hd⟩
  · have h01 : s = 0 ∨ s = 1 := by simp at hs; omega
    rcases h01 with rfl | rfl
    · rw [List.drop_zero, sanOps_eq, runOps, runOpsR]
      by_cases hc : isSpecial n = true ∨ (fc || isForeign S.E.U n) = false
      · have : applyOp S C path (fc || isForeign S.E.U n) 0 .dropForeign n = .cont n := by
          simp only [applyOp]
          rw [if_pos]
          rcases hc with h | h <;> simp [h]
        have hf : opFindings S C (fc || isForeign S.E.U n) .dropForeign n = [] := by
          simp only [opFindings]
          rw [if_pos]
          rcases hc with h | h <;> simp [h]
        rw [this, hf]
        have e : repItem S C fc (n, 0) = repItem S C fc (n, 1) := by simp [repItem, reps_hoist S C fc n hc]
        have e2 : itemCost (n, 0) = itemCost (n, 1) := by simp [itemCost]
        have := run_tailF S C path fc n
        unfold RunOkF at this ⊢
        rw [e, e2]
        exact this
      · have hc1 : isSpecial n = false := by
          cases h : isSpecial n with
          | true => exact absurd (.inl h) hc
          | false => rfl
        have hc2 : (fc || isForeign S.E.U n) = true := by
          cases h : (fc || isForeign S.E.U n) with
          | true => rfl
          | false => exact absurd (.inr h) hc
        obtain ⟨name, ns, as, kids, tpl, content, rfl⟩ := nodeName_ne_hash hc1
        have hcl : repItem S C fc (.elem name ns as kids tpl content, 0) = [.foreign (S.E.U.lower name)] := by
          simp [repItem, reps, hc1, hc2]
        have hf : opFindings S C (fc || isForeign S.E.U (.elem name ns as kids tpl content)) .dropForeign (.elem name ns as kids tpl content) =
            [.foreign (S.E.U.lower name)] := by
          simp only [opFindings, hc1, hc2]; rfl
        rw [hf]
        simp only [applyOp, hc1, hc2]
        cases hu : S.unclosed (.elem name ns as kids tpl content) with
        | true => exact ⟨fun _ => hcl, by simp, by simp⟩
        | false =>
          refine ⟨by simp, ?_, by simp⟩
          intro l hl
          simp at hl
          subst hl
          rw [hcl]; rfl
    · have : (sanOps C).drop 1 = tailOps C := by rw [sanOps_eq]; rfl
      rw [this]
      exact run_tailF S C path fc n
  · simp only at hs hd
    subst hd
    have key : ∀ op ∈ (sanOps C).drop s, ∀ i fg, applyOp S C path fg i op (.text d) = .cont (.text d) ∧ opFindings S C fg op (.text d) = [] := by
      intro op hop i fg
      have hop' : op ∈ (sanOps C).drop 3 := by
        have : (sanOps C).drop s = ((sanOps C).drop 3).drop (s - 3) := by rw [List.drop_drop]; congr 1; omega
        rw [this] at hop
        exact List.mem_of_mem_drop hop
      have hmem : op ∈ [Op.editAttrs, .mergeRel, .dropComments, .dropDoctype] := by
        revert hop'
        unfold sanOps
        generalize C.stripInv = a
        generalize C.forceRel.isEmpty = b
        generalize C.dropComments = c
        generalize C.dropDoctype = e
        cases a <;> cases b <;> cases c <;> cases e <;> simp <;> intro hop' <;>
          first
          | (subst hop'; simp)
          | (rcases hop' with rfl | rfl <;> simp)
          | (rcases hop' with rfl | rfl | rfl <;> simp)
          | (rcases hop' with rfl | rfl | rfl | rfl <;> simp)
      simp only [List.mem_cons, List.not_mem_nil, or_false] at hmem
      rcases hmem with rfl | rfl | rfl | rfl <;> simp [applyOp, opFindings, isSpecial, nodeName, isCommentName]
    have hrun : ∀ fg, runOps S C path fg s ((sanOps C).drop s) (.text d) = .cont (.text d) ∧ (runOpsR S C path fg s ((sanOps C).drop s) (.text d)).2 = [] := by
      intro fg
      generalize (sanOps C).drop s = ops at key
      clear hs
      induction ops generalizing s with
      | nil => exact ⟨rfl, rfl⟩
      | cons op ops ih =>
        rw [runOps, runOpsR, (key op (by simp) s fg).1, (key op (by simp) s fg).2]
        exact ih (s + 1) (fun o ho => key o (by simp [ho]))
    rw [(hrun _).1, (hrun _).2]
    have hne : s ≠ 0 ∧ s ≠ 1 := by omega
    refine ⟨by simp, by simp, ?_⟩
    intro n' hn' w _
    simp only [StepR.cont.injEq] at hn'
    subst hn'
    simp [repItem, hne.1, hne.2, descendR]

/-- The walk reports `reps`. -/
theorem walkR_reps (S : SanEnv) (C : SanCfg) : ∀ fuel up fc left items, (∀ x ∈ items, ItemOk x) → itemsCost items < fuel →
    (walkR S C (sanOps C) fuel up fc left items).2 = repItems S C fc items := by
  intro fuel
  induction fuel with
  | zero => intro _ _ _ _ _ h; omega
  | succ fuel ih =>
    intro up fc left items hok hf
    cases items with
    | nil => rw [walkR.eq_def]; simp [repItems]
    | cons x rest =>
      obtain ⟨n, s⟩ := x
      rw [walkR.eq_def]
      dsimp only
      have hrest : ∀ x ∈ rest, ItemOk x := fun x hx => hok x (by simp [hx])
      have hcost : itemsCost ((n, s) :: rest) = itemCost (n, s) + itemsCost rest := rfl
      have hpos : 1 ≤ itemCost (n, s) := by
        have := size_pos n; unfold itemCost; simp only []; split <;> omega
      have hF := run_itemF S C (⟨[], none, [], left, rest.map Prod.fst⟩ :: up) fc n s (hok _ (by simp))
      rw [runOpsR_fst]
      rcases run_item S C (⟨[], none, [], left, rest.map Prod.fst⟩ :: up) fc n s (hok _ (by simp)) with ⟨h, e⟩ | ⟨l, h, hl, hc, e⟩ | ⟨n', h, e⟩
      · rw [h] at hF ⊢
        dsimp only
        rw [← hF.1 rfl]
        simp [repItems, e, seqF]
      · rw [h] at hF ⊢
        dsimp only
        rw [ih up fc left (l ++ rest) ?_ ?_]
        · rw [repItems_append]
          simp only [repItems, e]
          rw [hF.2.1 l rfl]
          simp only [seqF]
          split
          · rfl
          · rw [List.append_assoc]
        · intro x hx
          rcases List.mem_append.1 hx with hx | hx
          · exact hl x hx
          · exact hrest x hx
        · rw [itemsCost_append]; omega
      · rw [h] at hF ⊢
        dsimp only
        rw [ih up fc _ rest hrest (by omega)]
        have hw : ∀ (b : Bool) (k : List Node), 2 * Node.sizeL k + 2 ≤ itemCost (n, s) →
            (walkR S C (sanOps C) fuel (if b then ⟨c%"#document-fragment", none, [], [], []⟩ ::
              frameOf left (rest.map Prod.fst) n' :: up else frameOf left (rest.map Prod.fst) n' :: up) (fc || isForeign S.E.U n) []
              (k.map fun k => (k, 0))).2 = repsL S C false (fc || isForeign S.E.U n) k := by
          intro b k hk
          rw [ih _ _ [] _ ?_ ?_, repItems_zero]
          · intro x hx
            obtain ⟨y, -, rfl⟩ := List.mem_map.1 hx
            exact .inl (Nat.zero_le _)
          · rw [itemsCost_map _ 0 (Nat.zero_le _)]; omega
        have hflag : (cleanItem S C fc (n, s)).2 = false := by
          rw [e (fun b k => (cleanL S C false (fc || isForeign S.E.U n) k).1) (fun _ _ _ => rfl)]
        rw [repItems, seqF, hflag, hF.2.2 n' rfl (fun frag kids => walkR S C (sanOps C) fuel (if frag then ⟨c%"#document-fragment", none, [], [], []⟩ ::
          frameOf left (rest.map Prod.fst) n' :: up else frameOf left (rest.map Prod.fst) n' :: up) (fc || isForeign S.E.U n) []
          (kids.map fun k => (k, 0))) hw]
        rfl

/-- The tree is the one of `sanitizeKids`. -/
theorem sanitizeKidsR_fst (S : SanEnv) (C : SanCfg) (kids : List Node) : (sanitizeKidsR S C kids).1 = sanitizeKids S C kids := by
  unfold sanitizeKidsR sanitizeKids transformKids
  dsimp only
  split
  · simp only [walkR_fst, List.nil_append]
  · simp only [walkR_fst, List.nil_append]

theorem sanitizeKidsR_snd (S : SanEnv) (C : SanCfg) (kids : List Node) :
    (sanitizeKidsR S C kids).2 = repsL S C false false kids ++
      (if C.allowedTags.any rawtextElements.contains then hardenFL S.E.U (cleanL S C false false kids).1 else []) := by
  have h1 : (walkR S C (sanOps C) (walkFuel kids) [] false [] (kids.map fun k => (k, 0))).2 = repsL S C false false kids := by
    rw [walkR_reps, repItems_zero]
    · intro x hx
      obtain ⟨y, -, rfl⟩ := List.mem_map.1 hx
      exact .inl (Nat.zero_le _)
    · rw [itemsCost_map _ 0 (Nat.zero_le _)]; unfold walkFuel; omega
  have h2 : (walkR S C (sanOps C) (walkFuel kids) [] false [] (kids.map fun k => (k, 0))).1 = (cleanL S C false false kids).1 := by
    rw [walkR_fst, walkF_clean, cleanItems_zero]
    · simp
    · intro x hx
      obtain ⟨y, -, rfl⟩ := List.mem_map.1 hx
      exact .inl (Nat.zero_le _)
    · rw [itemsCost_map _ 0 (Nat.zero_le _)]; unfold walkFuel; omega
  unfold sanitizeKidsR
  dsimp only
  split
  · simp only [h1, h2]
  · rw [h1, List.append_nil]

end JH
