import Verif.Props.TransAttrs
import Verif.Props.TransNodes
import Verif.Props.Prune
/-! Property C92: pipelines of several transforms. -/
namespace JH
open Spec

/-! ### Local operations -/

/-- What an operation does that looks at and changes the node itself only: for elements the new attributes and whether the element is emptied
(`none`: it is removed), for other nodes whether they stay. -/
structure LocalAct where
  elem : Str → Option Str → Attrs → Option (Attrs × Bool)
  other : Node → Bool

/-- The node itself after the operation. -/
def LocalAct.head (a : LocalAct) : Node → Option Node
  | .elem name ns as kids tpl content =>
    (a.elem name ns as).map fun r => .elem name ns r.1 (if r.2 then [] else kids) tpl (if r.2 && tpl then [] else content)
  | .doc kids => some (.doc kids)
  | n => if a.other n then some n else none

/-- One operation after the other. -/
def LocalAct.andThen (a b : LocalAct) : LocalAct where
  elem name ns as := (a.elem name ns as).bind fun r => (b.elem name ns r.1).map fun q => (q.1, r.2 || q.2)
  other n := a.other n && b.other n

/-- No operation. -/
def LocalAct.idle : LocalAct where
  elem _ _ as := some (as, false)
  other _ := true

def LocalAct.all (l : List LocalAct) : LocalAct := l.foldr LocalAct.andThen .idle

theorem head_andThen (a b : LocalAct) (n : Node) : (a.andThen b).head n = (a.head n).bind b.head := by
  have other : ∀ m : Node, (∀ c : LocalAct, c.head m = if c.other m then some m else none) → (a.andThen b).head m = (a.head m).bind b.head := by
    intro m h
    rw [h, h a]
    by_cases ha : a.other m = true
    · rw [if_pos ha, Option.bind_some, h b]
      by_cases hb : b.other m = true
      · rw [if_pos hb, if_pos (by simp [LocalAct.andThen, ha, hb])]
      · rw [if_neg hb, if_neg (by simp [LocalAct.andThen, hb])]
    · rw [if_neg ha, if_neg (by simp [LocalAct.andThen, ha])]
      rfl
  cases n with
  | elem name ns as kids tpl content =>
    simp only [LocalAct.head, LocalAct.andThen]
    cases a.elem name ns as with
    | none => rfl
    | some r =>
      simp only [Option.bind_some, Option.map_some, LocalAct.head]
      cases b.elem name ns r.1 with
      | none => rfl
      | some q =>
        obtain ⟨r1, r2⟩ := r
        obtain ⟨q1, q2⟩ := q
        cases r2 <;> cases q2 <;> cases tpl <;> rfl
  | doc kids => rfl
  | _ => exact other _ fun _ => rfl

theorem head_idle (n : Node) : LocalAct.idle.head n = some n := by
  cases n <;> simp [LocalAct.head, LocalAct.idle]

mutual
/-- The tree after the operation was applied at every node, below the node itself. -/
def LocalAct.below (a : LocalAct) : Node → Node
  | .elem name ns as kids tpl content => .elem name ns as (a.run kids) tpl (if tpl then a.run content else content)
  | .doc kids => .doc (a.run kids)
  | n => n
/-- The trees after the operation was applied at every node. -/
def LocalAct.run (a : LocalAct) : List Node → List Node
  | [] => []
  | n :: rest => (match a.head (a.below n) with | none => [] | some n' => [n']) ++ a.run rest
end

theorem head_below (a b : LocalAct) (n : Node) : b.head (a.below n) = (b.head n).map a.below := by
  cases n with
  | elem name ns as kids tpl content =>
    simp only [LocalAct.below, LocalAct.head]
    cases b.elem name ns as with
    | none => rfl
    | some r =>
      simp only [Option.map_some, LocalAct.below]
      cases r.2 <;> cases tpl <;> simp [LocalAct.run]
  | doc kids => rfl
  | _ =>
    simp only [LocalAct.below, LocalAct.head]
    split <;> rfl

mutual
theorem below_andThen (a b : LocalAct) : ∀ n, (a.andThen b).below n = b.below (a.below n)
  | .elem name ns as kids tpl content => by
    have h1 := run_andThen a b kids
    have h2 := run_andThen a b content
    simp only [LocalAct.below, h1]
    cases tpl
    · rfl
    · simp [h2]
  | .doc kids => by
    have h1 := run_andThen a b kids
    simp only [LocalAct.below, h1]
  | .text _ => rfl
  | .comment _ => rfl
  | .pi _ => rfl
  | .doctype _ _ _ => rfl
theorem run_andThen (a b : LocalAct) : ∀ l, (a.andThen b).run l = b.run (a.run l)
  | [] => rfl
  | n :: rest => by
    have h1 := below_andThen a b n
    have h2 := run_andThen a b rest
    simp only [LocalAct.run]
    rw [h1, h2, head_andThen, head_below b a, head_below a a]
    cases a.head n with
    | none => rfl
    | some n' =>
      simp only [Option.map_some, Option.bind_some, List.cons_append, List.nil_append, LocalAct.run]
end

mutual
theorem below_idle : ∀ n, LocalAct.idle.below n = n
  | .elem name ns as kids tpl content => by
    have h1 := run_idle kids
    have h2 := run_idle content
    simp only [LocalAct.below, h1]
    cases tpl
    · rfl
    · simp [h2]
  | .doc kids => by
    have h1 := run_idle kids
    simp only [LocalAct.below, h1]
  | .text _ => rfl
  | .comment _ => rfl
  | .pi _ => rfl
  | .doctype _ _ _ => rfl
theorem run_idle : ∀ l, LocalAct.idle.run l = l
  | [] => rfl
  | n :: rest => by
    have h1 := below_idle n
    have h2 := run_idle rest
    simp only [LocalAct.run]
    rw [h1, h2, head_idle]
    rfl
end

mutual
theorem below_named (a : LocalAct) : ∀ n, NamedTree n → NamedTree (a.below n)
  | .elem name ns as kids tpl content, h => by
    have h1 := run_named a kids h.kids
    have h2 := run_named a content
    rw [LocalAct.below]
    refine NamedTree.mk h.name h1 ?_
    rintro rfl
    exact h2 h.content
  | .doc kids, h => by
    have h1 := run_named a kids h.doc
    rw [LocalAct.below]
    simp only [NamedTree, Everywhere]
    exact ⟨fun _ _ _ _ _ _ e => by simp at e, (everywhereL_iff _ _).2 h1⟩
  | .text _, h => h
  | .comment _, h => h
  | .pi _, h => h
  | .doctype _ _ _, h => h
theorem run_named (a : LocalAct) : ∀ l, (∀ n ∈ l, NamedTree n) → ∀ n ∈ a.run l, NamedTree n
  | [], _, n, hn => by simp [LocalAct.run] at hn
  | m :: rest, h, n, hn => by
    have h1 := below_named a m (h m (by simp))
    have h2 := run_named a rest fun y hy => h y (by simp [hy])
    rw [LocalAct.run] at hn
    rcases List.mem_append.1 hn with hn | hn
    · generalize a.below m = m' at *
      cases m' with
      | elem name ns as kids tpl content =>
        simp only [LocalAct.head] at hn
        cases he : a.elem name ns as with
        | none => rw [he] at hn; simp at hn
        | some r =>
          rw [he] at hn
          simp only [Option.map_some, List.mem_singleton] at hn
          rw [hn]
          refine NamedTree.mk h1.name ?_ ?_
          · cases r.2
            · exact h1.kids
            · simp
          · rintro rfl
            cases r.2
            · exact h1.content
            · simp
      | doc kids =>
        simp only [LocalAct.head, List.mem_singleton] at hn
        rw [hn]; exact h1
      | _ =>
        simp only [LocalAct.head] at hn
        split at hn
        · simp at hn
        · rename_i x e
          split at e
          · simp only [Option.some.injEq] at e
            rw [← e] at hn
            simp only [List.mem_singleton] at hn
            rw [hn]; exact h1
          · simp at e
    · exact h2 n hn
end

/-- The operation of the walk does what the local operation does. -/
def Realizes (S : SanEnv) (C : SanCfg) (o : Op) (a : LocalAct) : Prop :=
  ∀ path fg idx n, NamedTree n → applyOp S C path fg idx o n = match a.head n with | none => .done [] | some n' => .cont n'

theorem head_named (a : LocalAct) {n n' : Node} (hn : NamedTree n) (h : a.head n = some n') : NamedTree n' ∧ n'.size ≤ n.size := by
  cases n with
  | elem name ns as kids tpl content =>
    simp only [LocalAct.head] at h
    cases he : a.elem name ns as with
    | none => rw [he] at h; simp at h
    | some r =>
      rw [he] at h
      simp only [Option.map_some, Option.some.injEq] at h
      subst h
      constructor
      · refine NamedTree.mk hn.name ?_ ?_
        · cases r.2
          · exact hn.kids
          · simp
        · rintro rfl
          cases r.2
          · exact hn.content
          · simp
      · cases r.2 <;> cases tpl <;> simp [Node.size, Node.sizeL] <;> omega
  | doc kids => simp only [LocalAct.head, Option.some.injEq] at h; subst h; exact ⟨hn, Nat.le_refl _⟩
  | _ =>
    simp only [LocalAct.head] at h
    split at h
    · simp only [Option.some.injEq] at h
      subst h
      exact ⟨hn, Nat.le_refl _⟩
    · simp at h

theorem runOps_local (S : SanEnv) (C : SanCfg) (path : List Frame) (fg : Bool) : ∀ (ops : List Op) (as : List LocalAct) (idx : Nat) (n : Node), NamedTree n →
    List.Forall₂ (Realizes S C) ops as →
    runOps S C path fg idx ops n = match (LocalAct.all as).head n with | none => .done [] | some n' => .cont n' := by
  intro ops
  induction ops with
  | nil =>
    intro as idx n _ h
    cases h
    simp [runOps, LocalAct.all, head_idle]
  | cons o ops ih =>
    intro as idx n hn h
    cases h with
    | cons h1 h2 =>
      rename_i a as
      rw [runOps, h1 path fg idx n hn]
      simp only [LocalAct.all, List.foldr_cons, head_andThen]
      cases he : a.head n with
      | none => rfl
      | some n' =>
        simp only [Option.bind_some]
        exact ih as (idx + 1) n' (head_named a hn he).1 h2

theorem forall2_drop {α β : Type} {r : α → β → Prop} {l : List α} {m : List β} (h : List.Forall₂ r l m) : ∀ s, List.Forall₂ r (l.drop s) (m.drop s) := by
  induction h with
  | nil => intro s; simp
  | cons h1 h2 ih =>
    intro s
    cases s with
    | zero => exact .cons h1 h2
    | succ s => exact ih s

theorem descend_below (a : LocalAct) (n : Node) (hn : NamedTree n) : descend (fun _ ks => a.run ks) n = a.below n := by
  cases n with
  | elem name ns as kids tpl content => rw [descend_elem _ _ _ _ _ _ hn.name]; rfl
  | _ => rfl

theorem run_flatMap (a : LocalAct) (l : List Node) : a.run l = l.flatMap fun n => match a.head (a.below n) with | none => [] | some n' => [n'] := by
  induction l with
  | nil => rfl
  | cons n l ih => rw [LocalAct.run, List.flatMap_cons, ih]

/-- A walk of local operations applies them one after the other, at every node. -/
theorem walk_local (S : SanEnv) (C : SanCfg) (ops : List Op) (as : List LocalAct) (h : List.Forall₂ (Realizes S C) ops as) (fuel : Nat) (kids : List Node)
    (hok : ∀ y ∈ kids, NamedTree y) (hf : Node.sizeL kids < fuel) :
    walkF S C ops fuel [] false [] (kids.map fun k => (k, 0)) = (LocalAct.all as).run kids := by
  rw [walk_exact0 S C ops NamedTree (fun n s => match (LocalAct.all (as.drop s)).head n with | none => [] | some n' => [(LocalAct.all as).below n'])
    fuel kids ?_ hok hf]
  · rw [run_flatMap]
    congr 1
    funext n
    rw [head_below, List.drop_zero]
    cases (LocalAct.all as).head n <;> rfl
  · intro path fg n s hn
    rw [runOps_local S C path fg (ops.drop s) (as.drop s) s n hn (forall2_drop h s)]
    cases he : (LocalAct.all (as.drop s)).head n with
    | none =>
      refine .inl ⟨[], rfl, by simp, ?_, by simp [he]⟩
      have := size_pos n
      simpa [Node.sizeL] using this
    | some n' =>
      obtain ⟨h1, h2⟩ := head_named _ hn he
      refine .inr ⟨n', rfl, fun w hw => ?_⟩
      dsimp only
      rw [he]
      dsimp only
      rw [← descend_below _ _ h1, descend_congr w (fun ks => (LocalAct.all as).run ks) n' h1]
      intro b k hk1 hk2
      rw [hw b k (by omega) hk2, run_flatMap]
      congr 1
      funext n
      dsimp only
      rw [head_below, List.drop_zero]
      cases (LocalAct.all as).head n <;> rfl

/-- The local operations one after the other. -/
def runAll (as : List LocalAct) (l : List Node) : List Node := as.foldl (fun l a => a.run l) l

theorem run_all (as : List LocalAct) : ∀ l, (LocalAct.all as).run l = runAll as l := by
  induction as with
  | nil => exact run_idle
  | cons a as ih =>
    intro l
    rw [LocalAct.all, List.foldr_cons, run_andThen]
    exact ih _

theorem runAll_named (as : List LocalAct) : ∀ l, (∀ n ∈ l, NamedTree n) → ∀ n ∈ runAll as l, NamedTree n := by
  induction as with
  | nil => exact fun _ h => h
  | cons a as ih => intro l h; exact ih _ (run_named a l h)

/-! ### Which transforms are local -/

def patchAct (p : Str → Option Str → Attrs → Bool) (f : Str → Attrs → Attrs) : LocalAct where
  elem name ns as := some (if p name ns as then f name as else as, false)
  other _ := true

def dropAct (p : Str → Option Str → Attrs → Bool) : LocalAct where
  elem name ns as := if p name ns as then none else some (as, false)
  other _ := true

def emptyAct (p : Str → Option Str → Attrs → Bool) : LocalAct where
  elem name ns as := some (as, p name ns as)
  other _ := true

def siftAct (stays : Node → Bool) : LocalAct where
  elem _ _ as := some (as, false)
  other := stays

theorem real_patch (S : SanEnv) (C : SanCfg) (sel : NodeSel) (p : Str → Option Str → Attrs → Bool) (f : Str → Attrs → Attrs)
    (hp : ∀ path name ns as kids tpl content, sel path (.elem name ns as kids tpl content) = p name ns as) :
    Realizes S C (opEdit sel (setAttrs f)) (patchAct p f) := by
  intro path fg idx n hn
  cases n with
  | elem name ns as kids tpl content =>
    simp only [opEdit, applyOp, proper_special hn.name, Bool.false_or, hp, LocalAct.head, patchAct, Option.map_some, Bool.false_eq_true, if_false, Bool.false_and]
    cases p name ns as <;> simp [setAttrs]
  | doc kids => rfl
  | doctype a b c => rfl
  | _ => rfl

theorem real_drop (S : SanEnv) (C : SanCfg) (sel : NodeSel) (p : Str → Option Str → Attrs → Bool)
    (hp : ∀ path name ns as kids tpl content, sel path (.elem name ns as kids tpl content) = p name ns as) :
    Realizes S C (opDrop sel) (dropAct p) := by
  intro path fg idx n hn
  cases n with
  | elem name ns as kids tpl content =>
    simp only [opDrop, opReplace, applyOp, proper_special hn.name, Bool.false_or, hp, LocalAct.head, dropAct]
    cases p name ns as <;> simp
  | doc kids => rfl
  | doctype a b c => rfl
  | _ => rfl

theorem real_empty (S : SanEnv) (C : SanCfg) (sel : NodeSel) (p : Str → Option Str → Attrs → Bool)
    (hp : ∀ path name ns as kids tpl content, sel path (.elem name ns as kids tpl content) = p name ns as) :
    Realizes S C (opEmpty sel) (emptyAct p) := by
  intro path fg idx n hn
  cases n with
  | elem name ns as kids tpl content =>
    simp only [opEmpty, opEdit, applyOp, proper_special hn.name, Bool.false_or, hp, LocalAct.head, emptyAct, Option.map_some]
    cases p name ns as <;> cases tpl <;> simp [emptied]
  | doc kids => rfl
  | doctype a b c => rfl
  | _ => rfl

theorem real_tags (S : SanEnv) (C : SanCfg) (tags : List Str) :
    Realizes S C (opDecide S none [dropIfTag S.E.U tags]) (dropAct fun name _ _ => tags.contains (S.E.U.lower name)) := by
  intro path fg idx n hn
  have key : ∀ m, isSpecial m = true → applyOp S C path fg idx (opDecide S none [dropIfTag S.E.U tags]) m = .cont m := by
    intro m hm
    have : dropIfTag S.E.U tags m = .keep := by simp [dropIfTag, hm]
    simp [applyOp, opDecide, chainAct, this, decideAct]
  cases n with
  | elem name ns as kids tpl content =>
    simp only [LocalAct.head, dropAct, applyOp, opDecide, chainAct]
    by_cases h : tags.contains (S.E.U.lower name) = true
    · have : dropIfTag S.E.U tags (.elem name ns as kids tpl content) = .drop := by simpa [dropIfTag, proper_special hn.name, nodeName] using h
      rw [if_pos h, this, if_neg (by simp)]
      rfl
    · have : dropIfTag S.E.U tags (.elem name ns as kids tpl content) = .keep := by simpa [dropIfTag, proper_special hn.name, nodeName] using h
      rw [if_neg h, this, if_pos rfl]
      rfl
  | doc kids => rw [key _ rfl]; rfl
  | doctype a b c => rw [key _ rfl]; rfl
  | _ => rw [key _ rfl]; rfl

theorem real_comments (S : SanEnv) (C : SanCfg) (hC : C.handling ≠ .escape) : Realizes S C .dropComments (siftAct fun n => !isCommentName n) := by
  intro path fg idx n hn
  cases n with
  | elem name ns as kids tpl content =>
    have : isCommentName (.elem name ns as kids tpl content) = false := by
      simp only [isCommentName, nodeName]
      have := hn.name.1
      cases name with
      | nil => rfl
      | cons c r =>
        simp only [List.head?_cons, ne_eq, Option.some.injEq] at this
        simp [this]
    simp [applyOp, this, LocalAct.head, siftAct]
  | doc kids => rfl
  | doctype a b c => rfl
  | text d => rfl
  | comment d => simp [applyOp, isCommentName, nodeName, hC, LocalAct.head, siftAct]
  | pi d => simp [applyOp, isCommentName, nodeName, hC, LocalAct.head, siftAct]

theorem real_doctype (S : SanEnv) (C : SanCfg) : Realizes S C .dropDoctype (siftAct fun n => nodeName n ≠ c%"!doctype") := by
  intro path fg idx n hn
  cases n with
  | elem name ns as kids tpl content =>
    have := hn.name.2
    simp [applyOp, nodeName, this, LocalAct.head, siftAct]
  | doc kids => rfl
  | doctype a b c => rfl
  | _ => rfl

/-- What a compiled transform does, for those that are local. -/
inductive CTIs (R : TransEnv) : CT → LocalAct → Prop
  | walk {o a} : Realizes R.S {} o a → CTIs R (.walk o) a
  | bulk {tags} : CTIs R (.bulk tags) (dropAct fun name _ _ => tags.contains (R.S.E.U.lower name))
  | edit {s fs} {q : Str → Option Str → Bool} : AttrSel R s (fun name ns _ => q name ns) → CTIs R (.editAttrs s fs) (patchAct (fun name ns _ => q name ns) (applyFuncs fs))

/-- What a transform does, for those that are local. -/
def TransIs (R : TransEnv) (t : Trans) (b : LocalAct) : Prop :=
  ∀ acc as, List.Forall₂ (CTIs R) acc as → ∃ as', List.Forall₂ (CTIs R) (lowerT R t acc) as' ∧ ∀ kids, runAll as'.reverse kids = b.run (runAll as.reverse kids)

theorem runAll_snoc (as : List LocalAct) (a : LocalAct) (l : List Node) : runAll (as ++ [a]) l = a.run (runAll as l) := by
  simp [runAll]

theorem transIs_push (R : TransEnv) (t : Trans) (b : LocalAct) (x : CT) (h : ∀ acc, lowerT R t acc = x :: acc) (hx : CTIs R x b) : TransIs R t b := by
  intro acc as ha
  refine ⟨b :: as, by rw [h]; exact .cons hx ha, fun kids => ?_⟩
  rw [List.reverse_cons, runAll_snoc]

theorem applyFuncs_append (fs gs : List (Str → Attrs → Option Attrs)) (name : Str) (as : Attrs) :
    applyFuncs (fs ++ gs) name as = applyFuncs gs name (applyFuncs fs name as) := by
  simp [applyFuncs]

theorem patchAct_then (q : Str → Option Str → Bool) (f g : Str → Attrs → Attrs) :
    patchAct (fun name ns _ => q name ns) (fun name as => g name (f name as)) =
      (patchAct (fun name ns _ => q name ns) f).andThen (patchAct (fun name ns _ => q name ns) g) := by
  simp only [patchAct, LocalAct.andThen, Option.bind_some, Option.map_some, Bool.or_self, LocalAct.mk.injEq, Bool.and_self, and_true]
  funext name ns as
  by_cases h : q name ns = true <;> simp [h]

theorem attrSel_unique (R : TransEnv) (s : Str) (q q' : Str → Option Str → Bool) (h : AttrSel R s fun name ns _ => q name ns)
    (h' : AttrSel R s fun name ns _ => q' name ns) : q = q' := by
  unfold AttrSel at h h'
  by_cases hs : isStar R.S.E.U s = true
  · rw [if_pos hs] at h h'
    funext name ns
    have h1 := congrFun (congrFun (congrFun h name) ns) []
    have h2 := congrFun (congrFun (congrFun h' name) ns) []
    exact h1.trans h2.symm
  · rw [if_neg hs] at h h'
    funext name ns
    have h1 := h [] name ns [] [] false []
    have h2 := h' [] name ns [] [] false []
    exact h1.symm.trans h2

theorem transIs_edit (R : TransEnv) (t : Trans) (s : Str) (f : Str → Attrs → Option Attrs) (q : Str → Option Str → Bool)
    (h : ∀ acc, lowerT R t acc = appendCT R.S.E.U (.editAttrs s [f]) acc) (hq : AttrSel R s fun name ns _ => q name ns) :
    TransIs R t (patchAct (fun name ns _ => q name ns) (applyFuncs [f])) := by
  intro acc as ha
  have push : ∃ as', List.Forall₂ (CTIs R) (.editAttrs s [f] :: acc) as' ∧
      ∀ kids, runAll as'.reverse kids = (patchAct (fun name ns _ => q name ns) (applyFuncs [f])).run (runAll as.reverse kids) := by
    refine ⟨_ :: as, .cons (.edit hq) ha, fun kids => ?_⟩
    rw [List.reverse_cons, runAll_snoc]
  rw [h]
  cases ha with
  | nil => exact push
  | cons h1 h2 =>
    cases h1 with
    | walk _ => exact push
    | bulk => exact push
    | edit hq' =>
      rename_i acc as s' fs q'
      simp only [appendCT]
      by_cases hs : s' = s
      · rw [if_pos hs]
        subst hs
        have e := attrSel_unique R s' _ _ hq hq'
        subst e
        refine ⟨_ :: as, .cons (.edit hq) h2, fun kids => ?_⟩
        rw [List.reverse_cons, runAll_snoc, List.reverse_cons, runAll_snoc, ← run_andThen, ← patchAct_then]
        congr 3
        funext name as
        exact applyFuncs_append fs [f] name as
      · rw [if_neg hs]
        exact push

/-- The transforms that look at a node and change or remove it, one node at a time. Selectors look at the element itself; those of the transforms that
edit attributes look at its name and namespace. -/
inductive OneByOne (R : TransEnv) : Trans → Prop
  | setAttrs {s p} (patch : Attrs) : OwnSel R s p → OneByOne R (.setAttrs s patch)
  | dropTags {s tags} : dropTagList R.S.E.U s = some tags → OneByOne R (.drop s)
  | drop {s p} : OwnSel R s p → OneByOne R (.drop s)
  | empty {s p} : OwnSel R s p → OneByOne R (.empty s)
  | editAttrs {s} {q : Str → Option Str → Bool} (f : Str → Attrs → Option Attrs) : AttrSel R s (fun name ns _ => q name ns) → OneByOne R (.editAttrs s f)
  | dropAttrs {s} {q : Str → Option Str → Bool} (patterns : List Str) : AttrSel R s (fun name ns _ => q name ns) → OneByOne R (.dropAttrs s patterns)
  | allowlistAttrs {s} {q : Str → Option Str → Bool} (allowed : List (Str × List Str)) : AttrSel R s (fun name ns _ => q name ns) → OneByOne R (.allowlistAttrs s allowed)
  | dropUrlAttrs {s} {q : Str → Option Str → Bool} (p : UrlPolicy) : AttrSel R s (fun name ns _ => q name ns) → OneByOne R (.dropUrlAttrs s p)
  | allowStyleAttrs {s} {q : Str → Option Str → Bool} (props : List Str) (p : Option UrlPolicy) : AttrSel R s (fun name ns _ => q name ns) → OneByOne R (.allowStyleAttrs s props p)
  | mergeAttrs (tag attr : Str) (tokens : List Str) : OneByOne R (.mergeAttrs tag attr tokens)
  | dropComments : OneByOne R .dropComments
  | dropDoctype : OneByOne R .dropDoctype

theorem OneByOne.act {R : TransEnv} {t : Trans} (h : OneByOne R t) : ∃ b, TransIs R t b := by
  cases h with
  | setAttrs patch hp => exact ⟨_, transIs_push R _ _ _ (fun _ => rfl) (.walk (real_patch R.S {} _ _ _ hp))⟩
  | @dropTags s tags hs => exact ⟨_, transIs_push R _ _ (.bulk tags) (fun acc => by simp only [lowerT, hs]) .bulk⟩
  | @drop s p hp =>
    cases hs : dropTagList R.S.E.U s with
    | some tags => exact ⟨_, transIs_push R _ _ (.bulk tags) (fun acc => by simp only [lowerT, hs]) .bulk⟩
    | none => exact ⟨_, transIs_push R _ _ (.walk (opDrop (R.sel s))) (fun acc => by simp only [lowerT, hs]) (.walk (real_drop R.S {} _ _ hp))⟩
  | empty hp => exact ⟨_, transIs_push R _ _ _ (fun _ => rfl) (.walk (real_empty R.S {} _ _ hp))⟩
  | editAttrs f hq => exact ⟨_, transIs_edit R _ _ _ _ (fun _ => rfl) hq⟩
  | dropAttrs _ hq => exact ⟨_, transIs_edit R _ _ _ _ (fun _ => rfl) hq⟩
  | allowlistAttrs _ hq => exact ⟨_, transIs_edit R _ _ _ _ (fun _ => rfl) hq⟩
  | dropUrlAttrs _ hq => exact ⟨_, transIs_edit R _ _ _ _ (fun _ => rfl) hq⟩
  | allowStyleAttrs _ _ hq => exact ⟨_, transIs_edit R _ _ _ _ (fun _ => rfl) hq⟩
  | mergeAttrs tag attr tokens =>
    cases tokens with
    | nil =>
      refine ⟨.idle, fun acc as ha => ⟨as, ?_, fun kids => (run_idle _).symm⟩⟩
      simpa [lowerT] using ha
    | cons a l =>
      exact ⟨_, transIs_push R _ _ (.walk (opMerge R.S.E.U tag attr (a :: l))) (fun acc => by simp [lowerT])
        (.walk (real_patch R.S {} _ (fun _ _ _ => true) _ fun _ _ _ _ _ _ _ => rfl))⟩
  | dropComments => exact ⟨_, transIs_push R _ _ _ (fun _ => rfl) (.walk (real_comments R.S {} (by decide)))⟩
  | dropDoctype => exact ⟨_, transIs_push R _ _ _ (fun _ => rfl) (.walk (real_doctype R.S {}))⟩

theorem lower_all (R : TransEnv) : ∀ (ts : List Trans) (bs : List LocalAct), List.Forall₂ (TransIs R) ts bs → ∀ acc as, List.Forall₂ (CTIs R) acc as →
    ∃ as', List.Forall₂ (CTIs R) ((ts.map fun t => (true, t)).foldl (fun acc p => if p.1 then lowerT R p.2 acc else acc) acc) as' ∧
      ∀ kids, runAll as'.reverse kids = runAll bs (runAll as.reverse kids) := by
  intro ts bs h
  induction h with
  | nil => intro acc as ha; exact ⟨as, ha, fun _ => rfl⟩
  | cons h1 h2 ih =>
    intro acc as ha
    obtain ⟨as1, h3, h4⟩ := h1 acc as ha
    obtain ⟨as2, h5, h6⟩ := ih _ as1 h3
    refine ⟨as2, by simpa using h5, fun kids => ?_⟩
    rw [h6, h4]
    rfl

theorem CTIs.isWalk {R : TransEnv} {c : CT} {a : LocalAct} (h : CTIs R c a) : isWalkCT c = true := by cases h <;> rfl

theorem runCT_walks (R : TransEnv) (fuel : List Node → Nat) (kids : List Node) : ∀ (l pending : List CT), (∀ c ∈ l, isWalkCT c = true) →
    runCT R fuel pending [] l kids = runWalk R (fuel kids) (pending.reverse ++ l) kids := by
  intro l
  induction l with
  | nil => intro pending _; simp [runCT, runCT.finishWalk, runCT.finishPrune]
  | cons c l ih =>
    intro pending h
    have hc := h c (by simp)
    have := ih (c :: pending) fun c hc => h c (by simp [hc])
    rw [List.reverse_cons, List.append_assoc, List.singleton_append] at this
    cases c <;> simp [isWalkCT] at hc <;> (simp only [runCT, runCT.finishPrune, List.isEmpty_nil, if_true]; exact this)

theorem ct_ops (R : TransEnv) (l : List CT) {c : CT} {a : LocalAct} (h : CTIs R c a) : ∃ o, opsOfCT R l c = [o] ∧ Realizes R.S {} o a := by
  cases h with
  | walk h => exact ⟨_, rfl, h⟩
  | bulk => exact ⟨_, rfl, real_tags R.S {} _⟩
  | @edit s fs q hq =>
    refine ⟨_, rfl, ?_⟩
    unfold AttrSel at hq
    by_cases hs : isStar R.S.E.U s = true
    · rw [if_pos hs] at hq ⊢
      rw [hq]
      exact real_patch R.S {} _ _ _ fun _ _ _ _ _ _ _ => rfl
    · rw [if_neg hs] at hq ⊢
      exact real_patch R.S {} _ _ _ hq

theorem cts_ops (R : TransEnv) (l0 : List CT) {l : List CT} {as : List LocalAct} (h : List.Forall₂ (CTIs R) l as) :
    List.Forall₂ (Realizes R.S {}) (l.flatMap (opsOfCT R l0)) as := by
  induction h with
  | nil => exact .nil
  | cons h1 _ ih =>
    obtain ⟨o, e, ho⟩ := ct_ops R l0 h1
    rw [List.flatMap_cons, e]
    exact .cons ho ih

theorem cts_policy (R : TransEnv) {l : List CT} {as : List LocalAct} (h : List.Forall₂ (CTIs R) l as) : walkPolicy l = {} := by
  induction h with
  | nil => rfl
  | cons h1 _ ih => cases h1 <;> exact ih

mutual
theorem bulk_below (U : Uni) (tags : List Str) : ∀ n, NamedTree n → bulkDrop U tags n = (dropAct fun name _ _ => tags.contains (U.lower name)).below n
  | .elem name ns as kids tpl content, h => by
    have h1 := bulk_run U tags kids h.kids
    have h2 := bulk_run U tags content
    simp only [bulkDrop, LocalAct.below, h1]
    cases tpl
    · rfl
    · simp [h2 h.content]
  | .doc kids, h => by
    have h1 := bulk_run U tags kids h.doc
    simp only [bulkDrop, LocalAct.below, h1]
  | .text _, _ => rfl
  | .comment _, _ => rfl
  | .pi _, _ => rfl
  | .doctype _ _ _, _ => rfl
theorem bulk_run (U : Uni) (tags : List Str) : ∀ l, (∀ n ∈ l, NamedTree n) → bulkDropL U tags l = (dropAct fun name _ _ => tags.contains (U.lower name)).run l
  | [], _ => rfl
  | n :: rest, h => by
    have h1 := bulk_below U tags n (h n (by simp))
    have h2 := bulk_run U tags rest fun y hy => h y (by simp [hy])
    have hn := h n (by simp)
    rw [LocalAct.run, bulkDropL, h2, head_below, h1]
    cases n with
    | elem name ns as kids tpl content =>
      simp only [proper_special hn.name, nodeName, LocalAct.head, dropAct, Bool.not_false, Bool.true_and]
      by_cases ht : tags.contains (U.lower name) = true
      · rw [if_pos ht, if_pos ht]; rfl
      · rw [if_neg ht, if_neg ht]; simp
    | doc kids => rfl
    | doctype a b c => rfl
    | _ => rfl
end

theorem forall2_reverse {α β : Type} {r : α → β → Prop} {l : List α} {m : List β} (h : List.Forall₂ r l m) : List.Forall₂ r l.reverse m.reverse := by
  have snoc : ∀ {l : List α} {m : List β} {a : α} {b : β}, List.Forall₂ r l m → r a b → List.Forall₂ r (l ++ [a]) (m ++ [b]) := by
    intro l m a b h hab
    induction h with
    | nil => exact .cons hab .nil
    | cons h1 _ ih => exact .cons h1 ih
  induction h with
  | nil => exact .nil
  | cons h1 _ ih => rw [List.reverse_cons, List.reverse_cons]; exact snoc ih h1

theorem forall2_left {α β : Type} {r : α → β → Prop} {l : List α} {m : List β} (h : List.Forall₂ r l m) {a : α} (ha : a ∈ l) : ∃ b, r a b := by
  induction h with
  | nil => simp at ha
  | cons h1 _ ih =>
    rcases List.mem_cons.1 ha with rfl | ha
    · exact ⟨_, h1⟩
    · exact ih ha

theorem runWalk_local (R : TransEnv) (fuel : Nat) (l : List CT) (as : List LocalAct) (h : List.Forall₂ (CTIs R) l as) (kids : List Node)
    (hk : ∀ k ∈ kids, NamedTree k) (hf : Node.sizeL kids < fuel) : runWalk R fuel l kids = runAll as kids := by
  have hw : walkF R.S (walkPolicy l) (l.flatMap (opsOfCT R l)) fuel [] false [] (kids.map fun k => (k, 0)) = runAll as kids := by
    rw [cts_policy R h, walk_local R.S {} _ as (cts_ops R l h) fuel kids hk hf, run_all]
  unfold runWalk
  split
  · cases h; rfl
  · cases h with
    | cons h1 h2 =>
      cases h2
      cases h1
      exact bulk_run R.S.E.U _ kids hk
  · exact hw

theorem transform_local (R : TransEnv) (fuel : List Node → Nat) (hf : EnoughFuel fuel) (ts : List Trans) (bs : List LocalAct)
    (h : List.Forall₂ (TransIs R) ts bs) (kids : List Node) (hk : ∀ k ∈ kids, NamedTree k) :
    transform R fuel (ts.map (.one true)) kids = runAll bs kids := by
  obtain ⟨as, h1, h2⟩ := lower_all R ts bs h [] [] .nil
  have e : compileT R (ts.map (.one true)) = ((ts.map fun t => (true, t)).foldl (fun acc p => if p.1 then lowerT R p.2 acc else acc) []).reverse := by
    have h3 : ts.map (TransSpec.one true) = (ts.map fun t => (true, t)).map fun p => TransSpec.one p.1 p.2 := by simp
    rw [compileT, h3, no_stages, flatten_ones]
    rfl
  rw [transform, e]
  generalize (ts.map fun t => (true, t)).foldl (fun acc p => if p.1 then lowerT R p.2 acc else acc) [] = l at *
  have hl : List.Forall₂ (CTIs R) l.reverse as.reverse := forall2_reverse h1
  rw [runCT_walks R fuel kids l.reverse [] ?_]
  · simp only [List.reverse_nil, List.nil_append]
    rw [runWalk_local R (fuel kids) _ _ hl kids hk (hf kids), h2]
    rfl
  · intro c hc
    obtain ⟨a, ha⟩ := forall2_left hl hc
    exact ha.isWalk

/-- C92: a pipeline of transforms that work node by node does what its transforms do one after the other, each on the result of the one before. -/
theorem C92_one_after_the_other_partial (R : TransEnv) (fuel : List Node → Nat) (hf : EnoughFuel fuel) (ts : List Trans) (kids : List Node)
    (ht : ∀ t ∈ ts, OneByOne R t) (hk : ∀ k ∈ kids, Everywhere WellNamed k) :
    transform R fuel (ts.map (.one true)) kids = ts.foldl (fun kids t => transform R fuel [.one true t] kids) kids := by
  have hb : ∃ bs, List.Forall₂ (TransIs R) ts bs := by
    clear hk
    induction ts with
    | nil => exact ⟨[], .nil⟩
    | cons t ts ih =>
      obtain ⟨b, hb⟩ := (ht t (by simp)).act
      obtain ⟨bs, hbs⟩ := ih fun t h => ht t (by simp [h])
      exact ⟨b :: bs, .cons hb hbs⟩
  obtain ⟨bs, hbs⟩ := hb
  rw [transform_local R fuel hf ts bs hbs kids hk]
  clear ht
  induction hbs generalizing kids with
  | nil => rfl
  | @cons t b ts bs h1 h2 ih =>
    have e := transform_local R fuel hf [t] [b] (.cons h1 .nil) kids hk
    simp only [List.map_cons, List.map_nil] at e
    rw [List.foldl_cons, e]
    exact ih _ (runAll_named [b] kids hk)

example : transform TransEnv.sample fuelFor ([.setAttrs c%"i" [(c%"id", some c%"1")], .drop c%".x", .dropComments].map (.one true)) sampleTree =
    transform TransEnv.sample fuelFor [.one true .dropComments] (transform TransEnv.sample fuelFor [.one true (.drop c%".x")]
      (transform TransEnv.sample fuelFor [.one true (.setAttrs c%"i" [(c%"id", some c%"1")])] sampleTree)) := by
  have := C92_one_after_the_other_partial TransEnv.sample fuelFor fuelFor_enough [.setAttrs c%"i" [(c%"id", some c%"1")], .drop c%".x", .dropComments]
    sampleTree ?_ sampleTree_named
  · simpa only [List.foldl_cons, List.foldl_nil] using this
  · intro t ht
    simp only [List.mem_cons, List.not_mem_nil, or_false] at ht
    rcases ht with rfl | rfl | rfl
    · exact .setAttrs _ (sample_tag _ (by decide))
    · exact .drop sample_class
    · exact .dropComments

end JH
