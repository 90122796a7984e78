import Verif.Spec.Removing
import Verif.Props.SafePipe
import Verif.Props.SanDrop
/-! Property C102: what comes after `Sanitize` and only removes keeps the tree safe. -/
namespace JH
open Spec

/-- Every node of `l` that is not a text occurs in `l0`, up to what is in it. -/
def Under (l l0 : List Node) : Prop := ∀ m, Reach m l → (∃ d, m = .text d) ∨ ∃ m0, Reach m0 l0 ∧ SameButContents m0 m

theorem same_trans {a b c : Node} (h : SameButContents a b) (h' : SameButContents b c) : SameButContents a c := by
  cases a <;> cases b <;> simp [SameButContents] at h <;> cases c <;> simp [SameButContents] at h' ⊢ <;> simp [h, h']

theorem under_refl (l : List Node) : Under l l := by
  intro m hm
  cases m with
  | text d => exact .inl ⟨d, rfl⟩
  | _ => exact .inr ⟨_, hm, by simp [SameButContents]⟩

theorem Under.trans {a b c : List Node} (h : Under a b) (h' : Under b c) : Under a c := by
  intro m hm
  rcases h m hm with h | ⟨m0, h0, hs⟩
  · exact .inl h
  · rcases h' m0 h0 with ⟨d, rfl⟩ | ⟨m1, h1, hs'⟩
    · cases m <;> simp [SameButContents] at hs
    · exact .inr ⟨m1, h1, same_trans hs' hs⟩

theorem Under.lift {a b c : List Node} (h : Under a b) (hr : ∀ x, Reach x b → Reach x c) : Under a c := by
  intro m hm
  rcases h m hm with h | ⟨m0, h0, hs⟩
  · exact .inl h
  · exact .inr ⟨m0, hr _ h0, hs⟩

theorem under_of_reach {a b : List Node} (h : ∀ x, Reach x a → Reach x b) : Under a b := (under_refl a).lift h

theorem under_nil (l : List Node) : Under [] l := fun _ h => (reach_nil h).elim

theorem Under.append {a b c : List Node} (h : Under a c) (h' : Under b c) : Under (a ++ b) c := by
  intro m hm
  rcases hm.append with hm | hm
  · exact h m hm
  · exact h' m hm

theorem Under.cons {n : Node} {b c : List Node} (h : Under [n] c) (h' : Under b c) : Under (n :: b) c := by
  intro m hm
  rcases hm.cons with hm | hm
  · exact h m hm
  · exact h' m hm

theorem Under.mono {a b c : List Node} (h : Under a b) (hs : ∀ x ∈ b, x ∈ c) : Under a c := h.lift fun _ hx => hx.mono hs

theorem under_text (d : Str) (l : List Node) : Under [.text d] l := by
  intro m hm
  exact .inl ⟨d, reach_leaf (by simp) (by simp) hm⟩

/-- An element with contents under those of another with the same head. -/
theorem under_elem {name : Str} {ns : Option Str} {as : Attrs} {kids kids' : List Node} {tpl : Bool} {content content' : List Node}
    (hk : name.head? ≠ some '#' → Under kids' kids) (hc : name.head? ≠ some '#' → tpl = true → Under content' content) :
    Under [.elem name ns as kids' tpl content'] [.elem name ns as kids tpl content] := by
  intro m hm
  rcases reach_elem hm with rfl | ⟨hn, h | ⟨ht, h⟩⟩
  · exact .inr ⟨_, .here (List.mem_singleton.2 rfl), by simp [SameButContents]⟩
  · rcases hk hn m h with h | ⟨m0, h0, hs⟩
    · exact .inl h
    · exact .inr ⟨m0, .kid (List.mem_singleton.2 rfl) hn h0, hs⟩
  · rcases hc hn ht m h with h | ⟨m0, h0, hs⟩
    · exact .inl h
    · subst ht; exact .inr ⟨m0, .content (List.mem_singleton.2 rfl) hn h0, hs⟩

theorem under_doc {kids kids' : List Node} (hk : Under kids' kids) : Under [.doc kids'] [.doc kids] := by
  intro m hm
  cases hm with
  | here h => have := List.mem_singleton.1 h; subst this; exact .inr ⟨_, .here (List.mem_singleton.2 rfl), by simp [SameButContents]⟩
  | kid h => simp at h
  | content h => simp at h
  | doc h h' =>
    simp only [List.mem_singleton, Node.doc.injEq] at h
    subst h
    rcases hk m h' with h | ⟨m0, h0, hs⟩
    · exact .inl h
    · exact .inr ⟨m0, .doc (List.mem_singleton.2 rfl) h0, hs⟩

theorem under_emptied (n : Node) : Under [emptied n] [n] := by
  cases n with
  | elem name ns as kids tpl content =>
    simp only [emptied]
    refine under_elem (fun _ => under_nil _) fun _ ht => ?_
    rw [if_pos ht]; exact under_nil _
  | doc kids => exact under_doc (under_nil _)
  | _ => exact under_refl _

theorem under_hoisted (n : Node) (hn : ∀ name ns as kids tpl content, n = .elem name ns as kids tpl content → name.head? ≠ some '#') : Under (hoisted n) [n] := by
  cases n with
  | elem name ns as kids tpl content =>
    have h := hn _ _ _ _ _ _ rfl
    simp only [hoisted]
    split
    · rename_i ht
      subst ht
      exact .append (under_of_reach fun x hx => .kid (List.mem_singleton.2 rfl) h hx) (under_of_reach fun x hx => .content (List.mem_singleton.2 rfl) h hx)
    · exact under_of_reach fun x hx => .kid (List.mem_singleton.2 rfl) h hx
  | doc kids => exact under_of_reach fun x hx => .doc (List.mem_singleton.2 rfl) hx
  | _ => exact under_nil _

theorem under_textNode (t : Option Str) (l : List Node) : Under (textNode? t) l := by
  unfold textNode?
  split
  · exact under_nil _
  · split
    · exact under_nil _
    · exact under_text _ _

theorem under_escaped (S : SanEnv) (n : Node) (hn : ∀ name ns as kids tpl content, n = .elem name ns as kids tpl content → name.head? ≠ some '#') :
    Under (escaped S n) [n] := ((under_textNode _ _).append (under_hoisted n hn)).append (under_textNode _ _)

/-- What a transform gives for a node is under it. -/
def StepR.under (n : Node) : StepR → Prop
  | .cont n' => Under [n'] [n]
  | .done l => Under (l.map Prod.fst) [n]
  | .cut => True

/-- What a user transform gives for a node is under it. -/
def UserAct.under (n : Node) : UserAct → Prop
  | .keep n' => Under [n'] [n]
  | .replace l _ => Under l [n]

/-- The operation only removes. -/
def OpUnder : Op → Prop
  | .user f => ∀ path n, (f path n).under n
  | .dropForeign => True
  | .dropComments => True
  | .dropDoctype => True
  | _ => False

theorem applyOp_under (S : SanEnv) (C : SanCfg) (path : List Frame) (fg : Bool) (idx : Nat) (op : Op) (n : Node) (h : OpUnder op) :
    (applyOp S C path fg idx op n).under n := by
  cases op with
  | user f =>
    have := h path n
    simp only [applyOp]
    split
    · rename_i n' e; rw [e] at this; exact this
    · rename_i l again e
      rw [e] at this
      simp only [StepR.under, List.map_map]
      have e2 : (Prod.fst ∘ fun x : Node => (x, if again = true then idx else idx + 1)) = id := rfl
      rw [e2, List.map_id]; exact this
  | dropForeign =>
    simp only [applyOp]
    split
    · exact under_refl _
    · split
      · trivial
      · exact under_nil _
  | dropComments =>
    simp only [applyOp]
    split
    · exact under_refl _
    · split
      · split <;> exact under_text _ _
      · exact under_nil _
  | dropDoctype =>
    simp only [applyOp]
    split
    · exact under_nil _
    · exact under_refl _
  | decide => exact h.elim
  | stripInvisible => exact h.elim
  | editAttrs => exact h.elim
  | mergeRel => exact h.elim

theorem runOps_under (S : SanEnv) (C : SanCfg) (path : List Frame) (fg : Bool) : ∀ (ops : List Op) (idx : Nat) (n : Node), (∀ o ∈ ops, OpUnder o) →
    (runOps S C path fg idx ops n).under n := by
  intro ops
  induction ops with
  | nil => intro idx n _; exact under_refl _
  | cons o ops ih =>
    intro idx n h
    have h1 := applyOp_under S C path fg idx o n (h o (by simp))
    rw [runOps]
    split
    · rename_i n' e
      rw [e] at h1
      have h2 := ih (idx + 1) n' fun o ho => h o (by simp [ho])
      revert h2
      generalize runOps S C path fg (idx + 1) ops n' = r
      intro h2
      cases r with
      | cont m => exact Under.trans h2 h1
      | done l => exact Under.trans h2 h1
      | cut => trivial
    · exact h1

theorem descend_under (walk : Bool → List Node → List Node) (hw : ∀ b l, Under (walk b l) l) (n : Node) : Under [descend walk n] [n] := by
  cases n with
  | elem name ns as kids tpl content =>
    simp only [descend]
    split
    · rename_i hn
      split
      · exact under_refl _
      · exact under_elem (fun h => absurd hn h) (fun h => absurd hn h)
    · refine under_elem (fun _ => hw _ _) fun _ ht => ?_
      rw [if_pos ht]; exact hw _ _
  | doc kids => exact under_doc (hw _ _)
  | _ => exact under_refl _

theorem walkF_under (S : SanEnv) (C : SanCfg) (ops : List Op) (h : ∀ o ∈ ops, OpUnder o) : ∀ fuel up fc left items,
    Under (walkF S C ops fuel up fc left items) (left ++ items.map Prod.fst) := by
  intro fuel
  have rev : ∀ (left l : List Node), Under left.reverse (left ++ l) := fun left l =>
    under_of_reach fun x hx => hx.mono (by intro y hy; simp at hy; simp [hy])
  induction fuel with
  | zero => intro up fc left items; rw [walkF.eq_def]; exact rev _ _
  | succ fuel ih =>
    intro up fc left items
    cases items with
    | nil => rw [walkF.eq_def]; exact rev _ _
    | cons x rest =>
      obtain ⟨n, s⟩ := x
      rw [walkF.eq_def]
      dsimp only
      have hr := runOps_under S C (⟨[], none, [], left, rest.map Prod.fst⟩ :: up) (fc || isForeign S.E.U n) (ops.drop s) s n
        (fun o ho => h o (List.mem_of_mem_drop ho))
      revert hr
      generalize runOps S C (⟨[], none, [], left, rest.map Prod.fst⟩ :: up) (fc || isForeign S.E.U n) s (ops.drop s) n = r
      intro hr
      cases r with
      | cut => exact rev _ _
      | done l =>
        refine (ih up fc left (l ++ rest)).trans ?_
        rw [List.map_append]
        refine .append (under_of_reach fun x hx => hx.mono (by intro y hy; simp [hy])) (.append (Under.mono hr (by simp)) ?_)
        exact under_of_reach fun x hx => hx.mono (by intro y hy; simp only [List.map_cons, List.mem_append, List.mem_cons]; exact .inr (.inr hy))
      | cont n' =>
        dsimp only
        refine (ih up fc _ rest).trans ?_
        rw [List.cons_append]
        refine .cons ?_ ?_
        · have hd : Under _ [n'] := descend_under (fun frag kids => walkF S C ops fuel
            (if frag then ⟨c%"#document-fragment", none, [], [], []⟩ :: frameOf left (rest.map Prod.fst) n' :: up else frameOf left (rest.map Prod.fst) n' :: up)
            (fc || isForeign S.E.U n) [] (kids.map fun k => (k, 0))) (fun b l => by
              have := ih (if b then ⟨c%"#document-fragment", none, [], [], []⟩ :: frameOf left (rest.map Prod.fst) n' :: up else frameOf left (rest.map Prod.fst) n' :: up)
                (fc || isForeign S.E.U n) [] (l.map fun k => (k, 0))
              simpa [List.map_map, Function.comp_def] using this) n'
          exact (hd.trans hr).mono (by simp)
        · exact under_of_reach fun x hx => hx.mono (by intro y hy; simp only [List.mem_append, List.map_cons, List.mem_cons] at hy ⊢; grind)

/-! ### The operations of the transforms -/

theorem special_of_head {n : Node} {name : Str} {ns : Option Str} {as : Attrs} {kids : List Node} {tpl : Bool} {content : List Node}
    (h : isSpecial n = false) (e : n = .elem name ns as kids tpl content) : name.head? ≠ some '#' := by
  subst e
  exact ((special_iff name ns as kids tpl content).1 h).1

theorem opReplace_under (p : NodeSel) (again : Bool) (f : Node → List Node)
    (hf : ∀ n, isSpecial n = false → Under (f n) [n]) : OpUnder (opReplace p again f) := by
  intro path n
  dsimp only
  by_cases h : (isSpecial n || !p path n) = true
  · rw [if_pos h]; exact under_refl _
  · rw [if_neg h]
    simp only [Bool.or_eq_true, not_or, Bool.not_eq_true] at h
    exact hf n h.1

theorem opEmpty_under (p : NodeSel) : OpUnder (opEmpty p) := by
  intro path n
  dsimp only
  simp only [UserAct.under]
  split
  · exact under_refl _
  · exact under_emptied _

/-- The callback unwraps or escapes no element with a reserved name. -/
def CallOk (f : Node → DecideAct) : Prop := ∀ name ns as kids tpl content, ¬ ProperName name →
  f (.elem name ns as kids tpl content) ≠ .unwrap ∧ f (.elem name ns as kids tpl content) ≠ .escape

theorem chainAct_ok (fs : List (Node → DecideAct)) (h : ∀ f ∈ fs, CallOk f) : CallOk (chainAct fs) := by
  induction fs with
  | nil => intro _ _ _ _ _ _ _; simp [chainAct]
  | cons f fs ih =>
    intro a b c d e g hp
    simp only [chainAct]
    split
    · exact ih (fun f hf => h f (by simp [hf])) a b c d e g hp
    · exact h f (by simp) a b c d e g hp

theorem decideAct_under (S : SanEnv) (f : Node → DecideAct) (h : CallOk f) (n : Node) : (decideAct S n (f n)).under n := by
  have hn : f n = .unwrap ∨ f n = .escape → ∀ name ns as kids tpl content, n = .elem name ns as kids tpl content → name.head? ≠ some '#' := by
    intro hf name ns as kids tpl content e hh
    subst e
    have := h name ns as kids tpl content fun hp => hp.1 hh
    rcases hf with hf | hf
    · exact this.1 hf
    · exact this.2 hf
  cases hf : f n with
  | keep => exact under_refl _
  | drop => exact under_nil _
  | empty => exact under_emptied _
  | unwrap => exact under_hoisted n (hn (.inl hf))
  | escape => exact under_escaped S n (hn (.inr hf))

theorem opDecide_under (S : SanEnv) (p : Option NodeSel) (fs : List (Node → DecideAct)) (h : ∀ f ∈ fs, CallOk f) : OpUnder (opDecide S p fs) := by
  intro path n
  dsimp only
  cases p with
  | none => exact decideAct_under S _ (chainAct_ok fs h) n
  | some p =>
    dsimp only
    split
    · exact under_refl _
    · exact decideAct_under S _ (chainAct_ok fs h) n

theorem opCollapse_under (U : Uni) (skip : List Str) (trim : Bool) (blocks : List Str) : OpUnder (opCollapse U skip trim blocks) := by
  intro path n
  dsimp only
  split
  · split
    · exact under_refl _
    · split
      · exact under_nil _
      · exact under_text _ _
  · exact under_refl _

theorem dropIfTag_ok (U : Uni) (tags : List Str) : CallOk (dropIfTag U tags) := by
  intro a b c d e f _
  unfold dropIfTag
  split <;> simp

/-- The compiled transform only removes. -/
def CTUnder (R : TransEnv) : CT → Prop
  | .walk o => OpUnder o
  | .bulk _ => True
  | .decide _ fs => ∀ f ∈ fs, CallOk f
  | .collapseWs _ _ _ => True
  | .prune _ _ => True
  | .boundary => True
  | .harden => True
  | _ => False

theorem opsOfCT_under (R : TransEnv) (l : List CT) (c : CT) (h : CTUnder R c) : ∀ o ∈ opsOfCT R l c, OpUnder o := by
  intro o ho
  cases c with
  | walk o' => simp only [opsOfCT, List.mem_singleton] at ho; subst ho; exact h
  | bulk tags =>
    simp only [opsOfCT, List.mem_singleton] at ho; subst ho
    exact opDecide_under _ _ _ (by intro f hf; simp only [List.mem_singleton] at hf; subst hf; exact dropIfTag_ok _ _)
  | decide s fs => simp only [opsOfCT, List.mem_singleton] at ho; subst ho; exact opDecide_under _ _ _ h
  | collapseWs s t b => simp only [opsOfCT, List.mem_singleton] at ho; subst ho; exact opCollapse_under _ _ _ _
  | prune => simp [opsOfCT] at ho
  | boundary => simp [opsOfCT] at ho
  | harden => simp [opsOfCT] at ho
  | _ => exact h.elim

theorem bulkDropL_mem (U : Uni) (tags : List Str) {x : Node} : ∀ {l : List Node}, x ∈ bulkDropL U tags l → ∃ n ∈ l, x = bulkDrop U tags n := by
  intro l
  induction l with
  | nil => intro h; simp [bulkDropL] at h
  | cons a l ih =>
    intro h
    simp only [bulkDropL] at h
    split at h
    · obtain ⟨n, hn, e⟩ := ih h; exact ⟨n, by simp [hn], e⟩
    · rcases List.mem_cons.1 h with h | h
      · exact ⟨a, by simp, h⟩
      · obtain ⟨n, hn, e⟩ := ih h; exact ⟨n, by simp [hn], e⟩

mutual
theorem bulkDrop_under (U : Uni) (tags : List Str) : ∀ n, Under [bulkDrop U tags n] [n]
  | .elem name ns as kids tpl content => by
    simp only [bulkDrop]
    refine under_elem (fun _ => bulkDropL_under U tags kids) fun _ ht => ?_
    rw [if_pos ht]; exact bulkDropL_under U tags content
  | .doc kids => by simp only [bulkDrop]; exact under_doc (bulkDropL_under U tags kids)
  | .text d => by simp only [bulkDrop]; exact under_refl _
  | .comment d => by simp only [bulkDrop]; exact under_refl _
  | .pi d => by simp only [bulkDrop]; exact under_refl _
  | .doctype a b c => by simp only [bulkDrop]; exact under_refl _
theorem bulkDropL_under (U : Uni) (tags : List Str) : ∀ l, Under (bulkDropL U tags l) l
  | [] => by simp only [bulkDropL]; exact under_nil _
  | n :: l => by
    simp only [bulkDropL]
    split
    · exact (bulkDropL_under U tags l).mono (by simp +contextual)
    · exact .cons ((bulkDrop_under U tags n).mono (by simp)) ((bulkDropL_under U tags l).mono (by simp +contextual))
end

mutual
theorem pruneIn_under (U : Uni) (batch : List (NodeSel × Bool)) : ∀ n up left right, Under [pruneIn U batch up left right n] [n]
  | .elem name ns as kids tpl content, up, left, right => by
    simp only [pruneIn]
    refine under_elem (fun _ => ?_) fun _ ht => ?_
    · exact pruneL_under U batch kids _ []
    · rw [if_pos ht]; exact pruneL_under U batch content _ []
  | .doc kids, up, left, right => by simp only [pruneIn]; exact under_doc (pruneL_under U batch kids _ [])
  | .text d, _, _, _ => by simp only [pruneIn]; exact under_refl _
  | .comment d, _, _, _ => by simp only [pruneIn]; exact under_refl _
  | .pi d, _, _, _ => by simp only [pruneIn]; exact under_refl _
  | .doctype a b c, _, _, _ => by simp only [pruneIn]; exact under_refl _
theorem pruneL_under (U : Uni) (batch : List (NodeSel × Bool)) : ∀ l up left, Under (pruneL U batch up left l) (left ++ l)
  | [], up, left => by
    simp only [pruneL]
    exact under_of_reach fun x hx => hx.mono (by simp)
  | n :: l, up, left => by
    simp only [pruneL]
    split
    · exact (pruneL_under U batch l up left).mono (by intro y hy; simp only [List.mem_append, List.mem_cons] at hy ⊢; grind)
    · refine (pruneL_under U batch l up _).trans ?_
      rw [List.cons_append]
      refine .cons ((pruneIn_under U batch n up left l).mono (by simp)) ?_
      exact under_of_reach fun x hx => hx.mono (by intro y hy; simp only [List.mem_append, List.mem_cons] at hy ⊢; grind)
end

theorem hardenL_under (U : Uni) (l : List Node) : Under (hardenL U l) l := by
  intro m hm
  rcases harden_reach hm l rfl with h | ⟨m0, h0, hs⟩
  · exact .inl h
  · cases m with
    | text d => exact .inl ⟨d, rfl⟩
    | elem =>
      cases m0 <;> simp [SameHead] at hs
      exact .inr ⟨_, h0, by simp [SameButContents, hs]⟩
    | doc =>
      cases m0 <;> simp [SameHead] at hs
      exact .inr ⟨_, h0, by simp [SameButContents]⟩
    | _ =>
      cases m0 <;> simp [SameHead] at hs
      exact .inr ⟨_, h0, by simp [SameButContents, hs]⟩

theorem runWalk_under (R : TransEnv) (fuel : Nat) (l : List CT) (h : ∀ c ∈ l, CTUnder R c) (kids : List Node) : Under (runWalk R fuel l kids) kids := by
  have gen : Under (walkF R.S (walkPolicy l) (l.flatMap (opsOfCT R l)) fuel [] false [] (kids.map fun k => (k, 0))) kids := by
    have := walkF_under R.S (walkPolicy l) (l.flatMap (opsOfCT R l)) (by
      intro o ho
      obtain ⟨c, hc, ho⟩ := List.mem_flatMap.1 ho
      exact opsOfCT_under R l c (h c hc) o ho) fuel [] false [] (kids.map fun k => (k, 0))
    simpa [List.map_map, Function.comp_def] using this
  unfold runWalk
  split
  · exact under_refl _
  · exact bulkDropL_under _ _ _
  · exact gen

theorem finishPrune_under (R : TransEnv) (batch : List (NodeSel × Bool)) (kids : List Node) : Under (runCT.finishPrune R batch kids) kids := by
  unfold runCT.finishPrune
  split
  · exact under_refl _
  · have := pruneL_under R.S.E.U batch.reverse kids [] []
    simpa using this

theorem runCT_under (R : TransEnv) (fuel : List Node → Nat) : ∀ (l : List CT) (pending : List CT) (batch : List (NodeSel × Bool)) (kids : List Node),
    (∀ c ∈ l, CTUnder R c) → (∀ c ∈ pending, CTUnder R c) → Under (runCT R fuel pending batch l kids) kids := by
  intro l
  induction l with
  | nil =>
    intro pending batch kids _ hp
    simp only [runCT, runCT.finishWalk]
    exact (runWalk_under R _ _ (by simpa using hp) _).trans (finishPrune_under R batch kids)
  | cons c l ih =>
    intro pending batch kids h hp
    have hl : ∀ c ∈ l, CTUnder R c := fun c hc => h c (by simp [hc])
    have hc := h c (by simp)
    have nil : ∀ c ∈ ([] : List CT), CTUnder R c := by simp
    have fw : ∀ k, Under (runCT.finishWalk R fuel pending k) k := fun k => runWalk_under R _ _ (by simpa using hp) _
    have push : ∀ d ∈ c :: pending, CTUnder R d := by
      intro d hd
      rcases List.mem_cons.1 hd with rfl | hd
      · exact hc
      · exact hp d hd
    cases c with
    | prune s strip =>
      simp only [runCT]
      split
      · exact (ih _ _ _ hl nil).trans (fw _)
      · exact ih _ _ _ hl nil
    | sanitize C => exact hc.elim
    | editDocument f => exact hc.elim
    | linkify => exact hc.elim
    | editAttrs => exact hc.elim
    | boundary => simp only [runCT]; exact (ih _ _ _ hl nil).trans ((fw _).trans (finishPrune_under _ _ _))
    | harden => simp only [runCT]; exact (ih _ _ _ hl nil).trans ((hardenL_under _ _).trans ((fw _).trans (finishPrune_under _ _ _)))
    | _ => simp only [runCT]; exact (ih _ _ _ hl push).trans (finishPrune_under _ _ _)

/-! ### Compilation -/

theorem appendCT_rem (R : TransEnv) (U : Uni) (x : CT) (acc : List CT) (hx : CTUnder R x) (h : ∀ c ∈ acc, CTUnder R c) :
    ∀ c ∈ appendCT U x acc, CTUnder R c := by
  have base : ∀ c ∈ x :: acc, CTUnder R c := by
    intro c hc
    rcases List.mem_cons.1 hc with rfl | hc
    · exact hx
    · exact h c hc
  cases acc with
  | nil => exact base
  | cons a r =>
    have hr : ∀ c ∈ r, CTUnder R c := fun c hc => h c (by simp [hc])
    have ha := h a (by simp)
    have two : ∀ y : CT, CTUnder R y → ∀ c ∈ y :: r, CTUnder R c := by
      intro y hy c hc
      rcases List.mem_cons.1 hc with rfl | hc
      · exact hy
      · exact hr c hc
    cases a with
    | bulk tags =>
      cases x with
      | decide s fs =>
        simp only [appendCT]
        split
        · refine two _ ?_
          intro f hf
          rcases List.mem_cons.1 hf with rfl | hf
          · exact dropIfTag_ok _ _
          · exact hx f hf
        · exact base
      | _ => exact base
    | editAttrs => exact ha.elim
    | decide s fs =>
      cases x with
      | decide s' fs' =>
        simp only [appendCT]
        split
        · refine two _ ?_
          intro f hf
          rcases List.mem_append.1 hf with hf | hf
          · exact ha f hf
          · exact hx f hf
        · exact base
      | _ => exact base
    | _ => exact base

theorem lowerT_rem (R : TransEnv) (t : Trans) (ht : Removing t) (acc : List CT) (h : ∀ c ∈ acc, CTUnder R c) : ∀ c ∈ lowerT R t acc, CTUnder R c := by
  have push : ∀ x : CT, CTUnder R x → ∀ c ∈ x :: acc, CTUnder R c := by
    intro x hx c hc
    rcases List.mem_cons.1 hc with rfl | hc
    · exact hx
    · exact h c hc
  cases t with
  | drop s =>
    simp only [lowerT]
    split
    · exact push _ trivial
    · exact push _ (opReplace_under _ _ _ fun _ _ => under_nil _)
  | unwrap s => exact push _ (opReplace_under _ _ _ fun n hn => under_hoisted n fun _ _ _ _ _ _ e => special_of_head hn e)
  | escape s => exact push _ (opReplace_under _ _ _ fun n hn => under_escaped _ n fun _ _ _ _ _ _ e => special_of_head hn e)
  | empty s => exact push _ (opEmpty_under _)
  | pruneEmpty s strip => exact push _ trivial
  | dropComments => exact push _ trivial
  | dropDoctype => exact push _ trivial
  | dropForeign => exact push _ trivial
  | collapseWs => exact push _ trivial
  | hardenRawtext => exact push _ trivial
  | decide s f =>
    exact appendCT_rem R _ (.decide s [f]) acc (by intro g hg; simp only [List.mem_singleton] at hg; subst hg; exact ht) h
  | _ => exact ht.elim

theorem foldLower_under (R : TransEnv) : ∀ (l : List (Bool × Trans)) (acc : List CT), (∀ p ∈ l, Removing p.2) → (∀ c ∈ acc, CTUnder R c) →
    ∀ c ∈ l.foldl (fun acc p => if p.1 then lowerT R p.2 acc else acc) acc, CTUnder R c := by
  intro l
  induction l with
  | nil => intro acc _ h; exact h
  | cons p l ih =>
    intro acc hl h
    refine ih _ (fun p hp => hl p (by simp [hp])) ?_
    dsimp only
    split
    · exact lowerT_rem R _ (hl p (by simp)) acc h
    · exact h

theorem lowerAll_under (R : TransEnv) (l : List (Bool × Trans)) (h : ∀ p ∈ l, Removing p.2) : ∀ c ∈ lowerAll R l, CTUnder R c := by
  intro c hc
  exact foldLower_under R l [] h (by simp) c (List.mem_reverse.1 hc)

mutual
theorem flattenSpec_removing : ∀ s, RemovingSpec s → ∀ p ∈ flattenSpec s, Removing p.2
  | .one e t, h, p, hp => by
    simp only [flattenSpec, List.mem_singleton] at hp; subst hp; simpa only [RemovingSpec] using h
  | .stage e l, h, p, hp => by
    simp only [flattenSpec] at hp
    split at hp
    · exact flattenSpecs_removing l (by simpa only [RemovingSpec] using h) p hp
    · simp at hp
theorem flattenSpecs_removing : ∀ l, RemovingSpecs l → ∀ p ∈ flattenSpecs l, Removing p.2
  | [], _, p, hp => by simp [flattenSpecs] at hp
  | s :: r, h, p, hp => by
    simp only [RemovingSpecs] at h
    simp only [flattenSpecs, List.mem_append] at hp
    rcases hp with hp | hp
    · exact flattenSpec_removing s h.1 p hp
    · exact flattenSpecs_removing r h.2 p hp
end

theorem removingSpecs_iff (l : List TransSpec) : RemovingSpecs l ↔ ∀ s ∈ l, RemovingSpec s := by
  induction l with
  | nil => simp [RemovingSpecs]
  | cons s l ih => simp [RemovingSpecs, ih]

theorem splitStages_removing : ∀ (specs pending : List TransSpec), (∀ s ∈ pending, RemovingSpec s) → (∀ s ∈ specs, RemovingSpec s) →
    ∀ st ∈ splitStages pending specs, RemovingSpecs st := by
  intro specs
  induction specs with
  | nil =>
    intro pending hp _ st hst
    simp only [splitStages] at hst
    split at hst
    · simp at hst
    · simp only [List.mem_singleton] at hst; subst hst; exact (removingSpecs_iff _).2 (by simpa using hp)
  | cons s specs ih =>
    intro pending hp h st hst
    have hs := h s (by simp)
    have hr : ∀ s ∈ specs, RemovingSpec s := fun s hs => h s (by simp [hs])
    cases s with
    | one e t =>
      refine ih (.one e t :: pending) ?_ hr st hst
      intro x hx
      rcases List.mem_cons.1 hx with rfl | hx
      · exact hs
      · exact hp x hx
    | stage e l =>
      simp only [splitStages] at hst
      split at hst
      · exact ih pending hp hr st hst
      · rcases List.mem_append.1 hst with hst | hst
        · split at hst
          · simp at hst
          · simp only [List.mem_singleton] at hst; subst hst; exact (removingSpecs_iff _).2 (by simpa using hp)
        · rcases List.mem_cons.1 hst with rfl | hst
          · simpa only [RemovingSpec] using hs
          · exact ih [] (by simp) hr st hst

theorem stageCTs_under (R : TransEnv) (st : List TransSpec) (h : RemovingSpecs st) :
    ∀ c ∈ CT.boundary :: (flattenSpecs st).flatMap fun p => lowerAll R [p], CTUnder R c := by
  intro c hc
  rcases List.mem_cons.1 hc with rfl | hc
  · trivial
  · obtain ⟨p, hp, hc⟩ := List.mem_flatMap.1 hc
    exact lowerAll_under R [p] (by intro q hq; simp only [List.mem_singleton] at hq; subst hq; exact flattenSpecs_removing st h _ hp) c hc

theorem compileT_under (R : TransEnv) (specs : List TransSpec) (h : RemovingSpecs specs) : ∀ c ∈ compileT R specs, CTUnder R c := by
  unfold compileT
  split
  · intro c hc
    obtain ⟨st, hst, hc⟩ := List.mem_flatMap.1 hc
    exact stageCTs_under R st (splitStages_removing specs [] (by simp) ((removingSpecs_iff _).1 h) st hst) c hc
  · exact lowerAll_under R _ (flattenSpecs_removing _ h)

/-- C102: a list of transforms that only remove, in any order and in any stages, with any selectors and callbacks, on any tree: every element of the
result was in the tree before, with the same name, the same namespace and exactly the same attributes; and so was every comment, processing instruction and
doctype. -/
theorem C102_removing (R : TransEnv) (fuel : List Node → Nat) (specs : List TransSpec) (h : RemovingSpecs specs) (kids : List Node) (m : Node)
    (hm : Reach m (transform R fuel specs kids)) : (∃ d, m = .text d) ∨ ∃ m0, Reach m0 kids ∧ SameButContents m0 m :=
  runCT_under R fuel (compileT R specs) [] [] kids (compileT_under R specs h) (by simp) m hm

/-! ### After `Sanitize` -/

theorem appendCT_keep (U : Uni) (x : CT) (C : SanCfg) (acc base : List CT) :
    ∃ acc', appendCT U x (acc ++ .sanitize C :: base) = acc' ++ .sanitize C :: base ∧ acc' = appendCT U x acc := by
  cases acc with
  | nil => exact ⟨[x], rfl, rfl⟩
  | cons a r =>
    refine ⟨_, ?_, rfl⟩
    cases a with
    | bulk tags =>
      cases x with
      | decide s fs => simp only [appendCT, List.cons_append]; split <;> rfl
      | _ => rfl
    | editAttrs s fs =>
      cases x with
      | editAttrs s' fs' => simp only [appendCT, List.cons_append]; split <;> rfl
      | _ => rfl
    | decide s fs =>
      cases x with
      | decide s' fs' => simp only [appendCT, List.cons_append]; split <;> rfl
      | _ => rfl
    | _ => rfl

theorem lowerT_keep (R : TransEnv) (t : Trans) (C : SanCfg) (acc base : List CT) :
    lowerT R t (acc ++ .sanitize C :: base) = lowerT R t acc ++ .sanitize C :: base := by
  have ap : ∀ x, appendCT R.S.E.U x (acc ++ .sanitize C :: base) = appendCT R.S.E.U x acc ++ .sanitize C :: base := by
    intro x
    obtain ⟨a, e, rfl⟩ := appendCT_keep R.S.E.U x C acc base
    exact e
  cases t with
  | drop s => simp only [lowerT]; split <;> rfl
  | mergeAttrs a b c => simp only [lowerT]; split <;> rfl
  | decide s f => simp only [lowerT]; exact ap _
  | editAttrs s f => simp only [lowerT]; exact ap _
  | dropAttrs s f => simp only [lowerT]; exact ap _
  | allowlistAttrs s f => simp only [lowerT]; exact ap _
  | dropUrlAttrs s f => simp only [lowerT]; exact ap _
  | allowStyleAttrs s f p => simp only [lowerT]; exact ap _
  | _ => rfl

theorem foldLower_keep (R : TransEnv) (C : SanCfg) (base : List CT) : ∀ (l : List (Bool × Trans)) (acc : List CT),
    l.foldl (fun acc p => if p.1 then lowerT R p.2 acc else acc) (acc ++ .sanitize C :: base) =
      l.foldl (fun acc p => if p.1 then lowerT R p.2 acc else acc) acc ++ .sanitize C :: base := by
  intro l
  induction l with
  | nil => intro acc; rfl
  | cons p l ih =>
    intro acc
    simp only [List.foldl_cons]
    split
    · rw [lowerT_keep]; exact ih _
    · exact ih _

theorem lowerAll_split (R : TransEnv) (C : SanCfg) (a b : List (Bool × Trans)) :
    lowerAll R (a ++ (true, .sanitize C) :: b) = lowerAll R a ++ .sanitize C :: lowerAll R b := by
  unfold lowerAll
  rw [List.foldl_append, List.foldl_cons]
  have : (if (true, Trans.sanitize C).1 = true then lowerT R (true, Trans.sanitize C).2 (List.foldl (fun acc p => if p.1 = true then lowerT R p.2 acc else acc) [] a)
      else List.foldl (fun acc p => if p.1 = true then lowerT R p.2 acc else acc) [] a) =
    [] ++ .sanitize C :: List.foldl (fun acc p => if p.1 = true then lowerT R p.2 acc else acc) [] a := rfl
  rw [this, foldLower_keep]
  simp

theorem splitStages_split (e : Bool) (t : Trans) (post : List TransSpec) (hpost : ∀ s ∈ post, RemovingSpec s) : ∀ (specs pending : List TransSpec),
    ∃ init st rest tail, splitStages pending (specs ++ .one e t :: post) = init ++ (st ++ .one e t :: rest) :: tail ∧
      RemovingSpecs rest ∧ ∀ st ∈ tail, RemovingSpecs st := by
  intro specs
  induction specs with
  | nil =>
    intro pending
    have key : ∀ (post acc : List TransSpec), (∀ s ∈ post, RemovingSpec s) → (∀ s ∈ acc, RemovingSpec s) →
        ∃ rest tail, splitStages (acc ++ .one e t :: pending) post = (pending.reverse ++ .one e t :: rest) :: tail ∧
          RemovingSpecs rest ∧ ∀ st ∈ tail, RemovingSpecs st := by
      intro post
      induction post with
      | nil =>
        intro acc _ ha
        refine ⟨acc.reverse, [], ?_, (removingSpecs_iff _).2 (by simpa using ha), by simp⟩
        simp [splitStages]
      | cons s post ih =>
        intro acc hp ha
        have hs := hp s (by simp)
        have hr : ∀ s ∈ post, RemovingSpec s := fun s hs => hp s (by simp [hs])
        cases s with
        | one e' t' =>
          have := ih (.one e' t' :: acc) hr (by
            intro x hx
            rcases List.mem_cons.1 hx with rfl | hx
            · exact hs
            · exact ha x hx)
          obtain ⟨rest, tail, h1, h2, h3⟩ := this
          exact ⟨rest, tail, by rw [splitStages.eq_def]; exact h1, h2, h3⟩
        | stage e' l =>
          cases e' with
          | false =>
            obtain ⟨rest, tail, h1, h2, h3⟩ := ih acc hr ha
            exact ⟨rest, tail, by simpa [splitStages] using h1, h2, h3⟩
          | true =>
            refine ⟨acc.reverse, l :: splitStages [] post, ?_, (removingSpecs_iff _).2 (by simpa using ha), ?_⟩
            · simp [splitStages]
            · intro st hst
              rcases List.mem_cons.1 hst with rfl | hst
              · simpa only [RemovingSpec] using hs
              · exact splitStages_removing post [] (by simp) hr st hst
    obtain ⟨rest, tail, h1, h2, h3⟩ := key post [] hpost (by simp)
    exact ⟨[], pending.reverse, rest, tail, by rw [List.nil_append, splitStages.eq_def]; exact h1, h2, h3⟩
  | cons s specs ih =>
    intro pending
    rw [List.cons_append]
    cases s with
    | one e' t' =>
      obtain ⟨init, st, rest, tail, h, h2⟩ := ih (.one e' t' :: pending)
      exact ⟨init, st, rest, tail, by rw [splitStages.eq_def]; exact h, h2⟩
    | stage e' l =>
      cases e' with
      | false =>
        obtain ⟨init, st, rest, tail, h, h2⟩ := ih pending
        exact ⟨init, st, rest, tail, by simpa [splitStages] using h, h2⟩
      | true =>
        obtain ⟨init, st, rest, tail, h, h2⟩ := ih []
        exact ⟨(if pending.isEmpty then [] else [pending.reverse]) ++ l :: init, st, rest, tail, by simp [splitStages, h], h2⟩

theorem compile_split (R : TransEnv) (specs post : List TransSpec) (C : SanCfg) (hp : RemovingSpecs post) :
    ∃ l1 l2, compileT R (specs ++ .one true (.sanitize C) :: post) = l1 ++ .sanitize C :: l2 ∧ ∀ c ∈ l2, CTUnder R c := by
  unfold compileT
  split
  · obtain ⟨init, st, rest, tail, h, h1, h2⟩ := splitStages_split true (.sanitize C) post ((removingSpecs_iff _).1 hp) specs []
    rw [h, List.flatMap_append, List.flatMap_cons]
    refine ⟨(init.flatMap fun st => CT.boundary :: (flattenSpecs st).flatMap fun p => lowerAll R [p]) ++ CT.boundary :: (flattenSpecs st).flatMap fun p => lowerAll R [p],
      ((flattenSpecs rest).flatMap fun p => lowerAll R [p]) ++ tail.flatMap fun st => CT.boundary :: (flattenSpecs st).flatMap fun p => lowerAll R [p], ?_, ?_⟩
    · have : lowerAll R [(true, .sanitize C)] = [.sanitize C] := rfl
      simp [flatten_append, flattenSpecs, flattenSpec, this]
    · intro c hc
      rcases List.mem_append.1 hc with hc | hc
      · exact stageCTs_under R rest h1 c (List.mem_cons_of_mem _ hc)
      · obtain ⟨st, hst, hc⟩ := List.mem_flatMap.1 hc
        exact stageCTs_under R st (h2 st hst) c hc
  · refine ⟨lowerAll R (flattenSpecs specs), lowerAll R (flattenSpecs post), ?_, lowerAll_under R _ (flattenSpecs_removing _ hp)⟩
    rw [flatten_append]
    simp only [flattenSpecs, flattenSpec, List.singleton_append]
    exact lowerAll_split R C _ _

theorem runCT_cut (R : TransEnv) (fuel : List Node → Nat) (C : SanCfg) (l2 : List CT) : ∀ (l pending : List CT) (batch : List (NodeSel × Bool)) (kids : List Node),
    runCT R fuel pending batch (l ++ .sanitize C :: l2) kids = runCT R fuel [] [] l2 (runCT R fuel pending batch (l ++ [.sanitize C]) kids) := by
  intro l
  induction l with
  | nil =>
    intro pending batch kids
    simp only [List.nil_append, runCT, runCT.finishWalk, runCT.finishPrune, List.isEmpty_nil, if_true, List.reverse_nil, runWalk]
  | cons c l ih =>
    intro pending batch kids
    rw [List.cons_append, List.cons_append]
    cases c with
    | prune s strip =>
      simp only [runCT]
      split <;> exact ih _ _ _
    | _ => simp only [runCT]; exact ih _ _ _

/-- What is left after `Sanitize` and removing transforms was left by `Sanitize`. -/
theorem after_sanitize (R : TransEnv) (fuel : List Node → Nat) (specs post : List TransSpec) (hp : RemovingSpecs post) (C : SanCfg) (kids : List Node) :
    ∃ pre kids', Under (transform R fuel (specs ++ .one true (.sanitize C) :: post) kids) (transformKids R.S C pre (fuel kids') kids') := by
  obtain ⟨l1, l2, h, h2⟩ := compile_split R specs post C hp
  obtain ⟨pre, kids', e⟩ := runCT_sanitized R fuel C l1 [] [] kids (by simp)
  refine ⟨pre, kids', ?_⟩
  rw [transform, h, runCT_cut, e]
  exact runCT_under R fuel l2 [] [] _ h2 (by simp)

theorem under_one {l l0 : List Node} (h : Under l l0) {name : Str} {ns : Option Str} {as : Attrs} {ks : List Node} {tpl : Bool} {content : List Node}
    (hm : Reach (.elem name ns as ks tpl content) l) : ∃ ks' content', Reach (.elem name ns as ks' tpl content') l0 := by
  rcases h _ hm with ⟨d, e⟩ | ⟨m0, h0, hs⟩
  · simp at e
  · cases m0 <;> simp [SameButContents] at hs
    obtain ⟨rfl, rfl, rfl, rfl⟩ := hs
    exact ⟨_, _, h0⟩

/-- C102: whatever comes before `Sanitize`, if only removing transforms come after it, only allowed elements are left. -/
theorem C102_tags (R : TransEnv) (fuel : List Node → Nat) (specs post : List TransSpec) (hpost : RemovingSpecs post) (C : SanCfg) (kids : List Node)
    (name : Str) (ns : Option Str) (as : Attrs) (ks : List Node) (tpl : Bool) (content : List Node)
    (hm : Reach (.elem name ns as ks tpl content) (transform R fuel (specs ++ .one true (.sanitize C) :: post) kids)) (hp : ProperName name) :
    R.S.E.U.lower name ∈ C.allowedTags := by
  obtain ⟨pre, kids', h⟩ := after_sanitize R fuel specs post hpost C kids
  obtain ⟨ks', content', hm⟩ := under_one h hm
  exact decision_keep (san_elem R.S C pre _ kids' name ns as ks' tpl content' hp hm).1

/-- C102: … and only allowed attributes. -/
theorem C102_attrs (R : TransEnv) (fuel : List Node → Nat) (specs post : List TransSpec) (hpost : RemovingSpecs post) (C : SanCfg) (hN : C.Normal R.S.E.U)
    (kids : List Node) (name : Str) (ns : Option Str) (as : Attrs) (ks : List Node) (tpl : Bool) (content : List Node)
    (hm : Reach (.elem name ns as ks tpl content) (transform R fuel (specs ++ .one true (.sanitize C) :: post) kids)) (hp : ProperName name) :
    ∀ q ∈ as, AttrAllowed R.S.E.U.lower C.allowedAttrs C.forceRel name q.1 := by
  obtain ⟨pre, kids', h⟩ := after_sanitize R fuel specs post hpost C kids
  obtain ⟨ks', content', hm⟩ := under_one h hm
  obtain ⟨-, as0, rfl⟩ := san_elem R.S C pre _ kids' name ns as ks' tpl content' hp hm
  exact post_names R.S C hN name as0

/-- C102: … and URLs only as approved by their rules. -/
theorem C102_urls (R : TransEnv) (fuel : List Node → Nat) (specs post : List TransSpec) (hpost : RemovingSpecs post) (C : SanCfg) (hN : C.Normal R.S.E.U)
    (hguard : ∀ tag, urlRuleFor C.url tag c%"http-equiv" = none ∧ urlRuleFor C.url tag c%"name" = none) (kids : List Node)
    (name : Str) (ns : Option Str) (as : Attrs) (ks : List Node) (tpl : Bool) (content : List Node)
    (hm : Reach (.elem name ns as ks tpl content) (transform R fuel (specs ++ .one true (.sanitize C) :: post) kids)) (hp : ProperName name)
    (k : Str) (v : Option Str) (hk : (k, v) ∈ as) (hr : k ≠ c%"rel") (hs : k ≠ c%"style") (kind : SinkKind)
    (hkind : CheckedAs R.S.E.U C.url (R.S.E.U.lower name) as k kind) :
    ∃ rule u s, urlRuleFor C.url (R.S.E.U.lower name) k = some rule ∧ v = some s ∧
      sinkValue R.S.E C.url rule (R.S.E.U.lower name) k kind u = some s := by
  obtain ⟨pre, kids', h⟩ := after_sanitize R fuel specs post hpost C kids
  obtain ⟨ks', content', hm⟩ := under_one h hm
  obtain ⟨-, as0, hpost'⟩ := san_elem R.S C pre _ kids' name ns as ks' tpl content' hp hm
  exact post_urls R.S C hN hguard name as as0 hpost' k v hk hr hs kind (checkedAs_kind _ _ _ _ _ _ hkind)

/-- C102: … and no comments, processing instructions or doctypes, as far as the policy drops them. -/
theorem C102_removed (R : TransEnv) (fuel : List Node → Nat) (specs post : List TransSpec) (hpost : RemovingSpecs post) (C : SanCfg) (kids : List Node) (m : Node)
    (hm : Reach m (transform R fuel (specs ++ .one true (.sanitize C) :: post) kids)) :
    (C.dropComments = true → (∀ d, m ≠ .comment d) ∧ ∀ d, m ≠ .pi d) ∧ (C.dropDoctype = true → ∀ n p s, m ≠ .doctype n p s) := by
  obtain ⟨pre, kids', h⟩ := after_sanitize R fuel specs post hpost C kids
  rcases h m hm with ⟨d, rfl⟩ | ⟨m0, h0, hs⟩
  · exact ⟨fun _ => ⟨by simp, by simp⟩, fun _ => by simp⟩
  · have := kept_removed R.S C m0 (san_kept R.S C pre _ kids' m0 h0)
    cases m0 <;> cases m <;> simp [SameButContents] at hs <;> simp at this ⊢ <;> exact this

/-- The transforms of the command line's `--cleanup`, and others, in a stage. -/
example : RemovingSpecs [.one true (.unwrap c%"a:not([href])"), .one true (.drop c%"img:not([src]), img[src=\"\"]"), .stage true [.one true (.pruneEmpty c%"*" true)],
    .one true (.decide c%"*" fun n => if isSpecial n then .keep else .unwrap)] := by
  refine ⟨trivial, trivial, ⟨trivial, trivial⟩, ?_, trivial⟩
  intro name ns as kids tpl content hp
  have : isSpecial (.elem name ns as kids tpl content) = true := by
    rw [← Bool.not_eq_false]
    intro h
    exact hp ((special_iff name ns as kids tpl content).1 h)
  dsimp only; rw [if_pos this]
  simp

/-- `[Sanitize, Unwrap("b"), PruneEmpty("i")]`: the `script` in the unwrapped element is gone, because `Sanitize` ends its walk. -/
example : transform TransEnv.sample fuelFor ([] ++ .one true (.sanitize { allowedTags := [c%"b", c%"i"], dropContent := [c%"script"] }) :: [.one true (.unwrap c%"b"), .one true (.pruneEmpty c%"i" true)])
    [.elem c%"b" (some c%"html") [(c%"onclick", some c%"x")] [.elem c%"script" (some c%"html") [] [.text c%"x"] false [], .elem c%"i" (some c%"html") [] [] false [],
      .elem c%"i" (some c%"html") [(c%"id", none)] [.text c%"y"] false []] false []] =
    [.elem c%"i" (some c%"html") [] [.text c%"y"] false []] := by
  with_unfolding_all rfl

end JH
