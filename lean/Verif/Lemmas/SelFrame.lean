import Verif.Lemmas.SelMonad
import Verif.Lemmas.SelSat
/-! Everything that is kept by the steps of the matcher is kept by the matcher. -/
namespace JH

/-- `I` is kept by spending steps and bytes and by changes of the caches; of the cache for ancestors only entries for depths below `d` may change. -/
structure Closed (I : SCtx → Prop) (d : Nat) : Prop where
  steps : Steps I
  bytes : SelBytes I
  parent : ∀ (c : SCtx) x, I c → I { c with parent := x }
  attrs : ∀ (c : SCtx) x, I c → I { c with attrs := x }
  nth : ∀ (c : SCtx) x, I c → I { c with nth := x }
  text : ∀ (c : SCtx) x, I c → I { c with text := x }
  prev : ∀ (c : SCtx) x, I c → I { c with prev := x }
  anc : ∀ (c : SCtx) x, I c → (∀ k e n, d ≤ e → x k e n = c.anc k e n) → I { c with anc := x }

/-- The invariant is kept, and errors satisfy `E`. -/
def KeepsE {α : Type} (E : SErr → Prop) (I : SCtx → Prop) (m : SM α) : Prop := Ok I m (fun _ => True) E

/-- The invariant is kept, whatever happens. -/
abbrev Keeps {α : Type} (I : SCtx → Prop) (m : SM α) : Prop := KeepsE (fun _ => True) I m

/-- Running out of budget is allowed. -/
class BudgetC (E : SErr → Prop) : Prop where
  budget : Budget E

instance : BudgetC (fun _ => True) := ⟨⟨trivial, trivial⟩⟩

variable {α β : Type} {I : SCtx → Prop} {U : Uni} {h : Heap} {d : Nat} {E : SErr → Prop} [BudgetC E]

omit [BudgetC E] in
theorem KeepsE.pure {a : α} : KeepsE E I (pure a) := Ok.pure trivial
omit [BudgetC E] in
theorem KeepsE.fail {e : SErr} (he : E e) : KeepsE E I (SM.fail e : SM α) := Ok.fail he
omit [BudgetC E] in
theorem KeepsE.get {f : SCtx → α} : KeepsE E I (SM.get f) := Ok.get fun _ _ => trivial
omit [BudgetC E] in
theorem KeepsE.bind {x : SM α} {f : α → SM β} (hx : KeepsE E I x) (hf : ∀ a, KeepsE E I (f a)) : KeepsE E I (x >>= f) := Ok.bind hx fun a _ => hf a
omit [BudgetC E] in
theorem KeepsE.set {f : SCtx → SCtx} (h : ∀ c, I c → I (f c)) : KeepsE E I (SM.set f) := Ok.set h trivial
theorem KeepsE.step {k : SM α} (c : Closed I d) (hk : KeepsE E I k) : KeepsE E I (do tick; work1; k) := Ok.step c.steps BudgetC.budget.steps hk
theorem KeepsE.bytes {n : Nat} {k : SM α} (c : Closed I d) (hk : KeepsE E I k) : KeepsE E I (do tickBytes n; k) := Ok.bytes c.bytes BudgetC.budget.bytes hk

theorem parentLoop_keeps (c : Closed I d) (l : List Nat) : ∀ a, KeepsE E I (parentLoop U h a l) := by
  induction l with
  | nil => intro a; exact .pure
  | cons x l ih => intro a; exact .step c (ih _)

theorem parentData_keeps (c : Closed I d) (p : Nat) : KeepsE E I (parentData U h p) := by
  refine .bind .get ?_
  rintro (_ | x)
  · exact .bind (parentLoop_keeps c _ _) fun a => .bind (.set fun s hs => c.parent s _ hs) fun _ => .pure
  · exact .pure

theorem attrLoop_keeps (c : Closed I d) (l : Dict) : ∀ a, KeepsE E I (attrLoop U a l) := by
  induction l with
  | nil => intro a; exact .pure
  | cons x l ih => intro a; exact .bytes c (ih _)

theorem nodeAttrs_keeps (c : Closed I d) (n : Nat) : KeepsE E I (nodeAttrs U h n) := by
  unfold nodeAttrs
  by_cases h0 : h.attrsOf n = []
  · rw [if_pos h0]; exact .pure
  · rw [if_neg h0]
    refine .bind .get ?_
    rintro (_ | x)
    · exact .bind (attrLoop_keeps c _ _) fun a => .bind (.set fun s hs => c.attrs s _ hs) fun _ => .pure
    · exact .pure

theorem splitTokens_keeps (c : Closed I d) (v : Str) : KeepsE E I (splitTokens U v) := .bytes c .pure

theorem classTokens_keeps (c : Closed I d) (n : Nat) : KeepsE E I (classTokens U h n) := by
  refine .bind (nodeAttrs_keeps c n) ?_
  rintro (_ | x)
  · exact .pure
  · dsimp only
    cases x.cls with
    | some ts => exact .pure
    | none => exact .bind (splitTokens_keeps c _) fun a => .bind (.set fun s hs => c.attrs s _ hs) fun _ => .pure

theorem attrValue_keeps (c : Closed I d) (n : Nat) (name : Str) : KeepsE E I (attrValueOf U h n name) := by
  refine .bind (nodeAttrs_keeps c n) ?_
  rintro (_ | x)
  · exact .pure
  · exact .pure

theorem attrTokens_keeps (c : Closed I d) (n : Nat) (name v : Str) : KeepsE E I (attrTokens U h n name v) := by
  unfold attrTokens
  by_cases h0 : v = []
  · rw [if_pos h0]; exact .pure
  · rw [if_neg h0]
    refine .bind (nodeAttrs_keeps c n) ?_
    rintro (_ | x)
    · exact .pure
    · dsimp only
      cases x.toks name with
      | some ts => exact .pure
      | none => exact .bind (splitTokens_keeps c _) fun a => .bind (.set fun s hs => c.attrs s _ hs) fun _ => .pure

omit [BudgetC E] in
theorem KeepsE.ite {p : Prop} [Decidable p] {x y : SM α} (hx : KeepsE E I x) (hy : KeepsE E I y) : KeepsE E I (if p then x else y) := by
  by_cases hp : p
  · rw [if_pos hp]; exact hx
  · rw [if_neg hp]; exact hy

theorem matchOp_keeps (c : Closed I d) (n : Nat) (name v op w : Str) : KeepsE E I (matchOp U h n name v op w) := by
  unfold matchOp
  exact .ite (.bytes c .pure) (.ite (.bind (attrTokens_keeps c n name v) fun _ => .pure) (.ite (.bytes c .pure) (.ite (.bytes c .pure)
    (.ite (.bytes c .pure) (.ite (.bytes c .pure) .pure)))))

theorem matchAttr_keeps (c : Closed I d) (n : Nat) (name : Str) (op : Option (Str × Str)) : KeepsE E I (matchAttr U h n name op) := by
  refine .bind (attrValue_keeps c n name) ?_
  rintro (_ | v)
  · exact .pure
  · rcases op with _ | ⟨o, w⟩
    · exact .pure
    · exact matchOp_keeps c n name v o w

theorem setText_keeps (c : Closed I d) (n : Nat) (s : Str) : KeepsE E I (setText n s) := .set fun x hx => c.text x _ hx

theorem nodeText_keeps (c : Closed I d) (n : Nat) : KeepsE E I (nodeText U h n) := by
  unfold nodeText
  dsimp only
  refine .ite ?_ ?_
  · rcases (h.obj n).data with _ | (_ | ⟨x, xs⟩)
    · exact .pure
    · exact .pure
    · exact .bytes c .pure
  · exact .bind .get fun t => .bytes c .pure

theorem textLoop_keeps (c : Closed I d) (f : Nat) : ∀ st vis, KeepsE E I (textLoop U h f st vis) := by
  induction f with
  | zero => intro st vis; exact .fail BudgetC.budget.steps
  | succ f ih =>
    intro st vis
    match st with
    | [] => exact .pure
    | (n, b) :: st =>
      rw [textLoop]
      refine .step c (.bind .get fun t => .ite (ih _ _) (.ite (.bind (nodeText_keeps c n) fun s => .bind (setText_keeps c n s) fun _ => ih _ _)
        (.ite (.bind (setText_keeps c n []) fun _ => ih _ _) (ih _ _))))

theorem textContent_keeps (c : Closed I d) (n : Nat) : KeepsE E I (textContent U h n) := by
  refine .step c (.bind .get ?_)
  rintro (_ | s)
  · exact .bind .get fun s => .bind (textLoop_keeps c _ _ _) fun _ => .get
  · exact .pure

theorem elementKids_keeps (c : Closed I d) (p : Nat) : KeepsE E I (elementKids U h p) := by
  unfold elementKids
  exact .ite .pure (.bind (parentData_keeps c p) fun _ => .pure)

theorem childNames_keeps (c : Closed I d) (p : Nat) : KeepsE E I (childNames U h p) := by
  unfold childNames
  exact .ite .pure (.bind (parentData_keeps c p) fun _ => .pure)

theorem isFirstChild_keeps (c : Closed I d) (n : Nat) : KeepsE E I (isFirstChild U h n) := by
  unfold isFirstChild
  cases (h.obj n).parent with
  | none => exact .pure
  | some p => exact .bind (elementKids_keeps c p) fun _ => .pure

theorem isLastChild_keeps (c : Closed I d) (n : Nat) : KeepsE E I (isLastChild U h n) := by
  unfold isLastChild
  cases (h.obj n).parent with
  | none => exact .pure
  | some p => exact .bind (elementKids_keeps c p) fun _ => .pure

theorem isEmptyNode_keeps (c : Closed I d) (n : Nat) : KeepsE E I (isEmptyNode U h n) := by
  unfold isEmptyNode
  exact .ite .pure (.bind (parentData_keeps c n) fun _ => .pure)

theorem isFirstOfType_keeps (c : Closed I d) (n : Nat) : KeepsE E I (isFirstOfType U h n) := by
  unfold isFirstOfType
  cases (h.obj n).parent with
  | none => exact .pure
  | some p => exact .bind (parentData_keeps c p) fun _ => .pure

theorem isLastOfType_keeps (c : Closed I d) (n : Nat) : KeepsE E I (isLastOfType U h n) := by
  unfold isLastOfType
  cases (h.obj n).parent with
  | none => exact .pure
  | some p => exact .bind (parentData_keeps c p) fun _ => .pure

theorem nthExpr_keeps (c : Closed I d) (e : Option Str) : KeepsE E I (nthExpr U e) := by
  refine .bind .get ?_
  rintro (_ | r)
  · exact .bind (.set fun s hs => c.nth s _ hs) fun _ => .pure
  · exact .pure

theorem matchNth_keeps (c : Closed I d) (n : Nat) (arg : Option Str) (ix : ParentData → Nat → Option Nat) : KeepsE E I (matchNth U h n arg ix) := by
  unfold matchNth
  cases (h.obj n).parent with
  | none => exact .pure
  | some p =>
    refine .bind (nthExpr_keeps c arg) ?_
    rintro (_ | ⟨a, b⟩)
    · exact .pure
    · refine .bind (parentData_keeps c p) fun x => ?_
      cases ix x n with
      | none => exact .pure
      | some i => exact .pure

omit [BudgetC E] in
theorem and_keeps {x y : SM Bool} (hx : KeepsE E I x) (hy : KeepsE E I y) : KeepsE E I (do if ← x then y else pure false) := .bind hx fun _ => .ite hy .pure

theorem matchPseudo_keeps (c : Closed I d) (inner : Sel → Nat → SM Bool) (n : Nat) (name : Str) (arg : Option Str) (sel : Sel)
    (hk : KnownPseudo name arg ∨ (E .unsupported ∧ E .noArg)) (hin : name = c%"not" → arg.getD [] ≠ [] → KeepsE E I (inner sel n)) :
    KeepsE E I (matchPseudo U h inner n name arg sel) := by
  unfold matchPseudo
  by_cases hc : name = c%"contains"
  · subst hc
    simp only [show ¬ (c%"contains" = c%"first-child") by decide, show ¬ (c%"contains" = c%"last-child") by decide, show ¬ (c%"contains" = c%"nth-child") by decide,
      show ¬ (c%"contains" = c%"not") by decide, show ¬ (c%"contains" = c%"only-child") by decide, show ¬ (c%"contains" = c%"empty") by decide,
      show ¬ (c%"contains" = c%"root") by decide, if_true, if_false]
    cases arg with
    | none => exact .fail (hk.elim (fun hx => absurd rfl (hx.2 rfl)) fun hx => hx.2)
    | some a => exact .bytes c (.ite .pure (.bind (textContent_keeps c n) fun _ => .pure))
  · rw [if_neg hc]
    by_cases hn : name = c%"not"
    · subst hn
      simp only [show ¬ (c%"not" = c%"first-child") by decide, show ¬ (c%"not" = c%"last-child") by decide, show ¬ (c%"not" = c%"nth-child") by decide, if_true, if_false]
      by_cases ha : arg.getD [] = []
      · rw [if_pos ha]; exact .pure
      · rw [if_neg ha]; exact .bind (hin rfl ha) fun _ => .pure
    · rw [if_neg hn]
      by_cases hu : E .unsupported
      · refine .ite (isFirstChild_keeps c n) (.ite (isLastChild_keeps c n) (.ite (matchNth_keeps c n arg _)
          (.ite (and_keeps (isFirstChild_keeps c n) (isLastChild_keeps c n)) (.ite (isEmptyNode_keeps c n) (.ite ?_ (.ite .pure
          (.ite (isFirstOfType_keeps c n) (.ite (isLastOfType_keeps c n) (.ite (matchNth_keeps c n arg _)
          (.ite (and_keeps (isFirstOfType_keeps c n) (isLastOfType_keeps c n)) (.fail hu)))))))))))
        cases (h.obj n).parent with
        | none => exact .pure
        | some p => exact .pure
      · have hk := (hk.resolve_right fun hx => hu hx.1).1
        by_cases h1 : name = c%"first-child"
        · rw [if_pos h1]; exact isFirstChild_keeps c n
        rw [if_neg h1]
        by_cases h2 : name = c%"last-child"
        · rw [if_pos h2]; exact isLastChild_keeps c n
        rw [if_neg h2]
        by_cases h3 : name = c%"nth-child"
        · rw [if_pos h3]; exact matchNth_keeps c n arg _
        rw [if_neg h3]
        by_cases h4 : name = c%"only-child"
        · rw [if_pos h4]; exact and_keeps (isFirstChild_keeps c n) (isLastChild_keeps c n)
        rw [if_neg h4]
        by_cases h5 : name = c%"empty"
        · rw [if_pos h5]; exact isEmptyNode_keeps c n
        rw [if_neg h5]
        by_cases h6 : name = c%"root"
        · rw [if_pos h6]
          cases (h.obj n).parent with
          | none => exact .pure
          | some p => exact .pure
        rw [if_neg h6]
        by_cases h7 : name = c%"comment"
        · rw [if_pos h7]; exact .pure
        rw [if_neg h7]
        by_cases h8 : name = c%"first-of-type"
        · rw [if_pos h8]; exact isFirstOfType_keeps c n
        rw [if_neg h8]
        by_cases h9 : name = c%"last-of-type"
        · rw [if_pos h9]; exact isLastOfType_keeps c n
        rw [if_neg h9]
        by_cases h10 : name = c%"nth-of-type"
        · rw [if_pos h10]; exact matchNth_keeps c n arg _
        rw [if_neg h10]
        by_cases h11 : name = c%"only-of-type"
        · rw [if_pos h11]; exact and_keeps (isFirstOfType_keeps c n) (isLastOfType_keeps c n)
        simp [h1, h2, h3, h4, h5, h6, h7, h8, h9, h10, h11, hc, hn] at hk

theorem matchSimple_keeps (c : Closed I d) (inner : Sel → Nat → SM Bool) (n : Nat) (s : Simple)
    (hk : KnownSimple s ∨ (E .unsupported ∧ E .noArg)) (hin : ∀ i, Negates i s → KeepsE E I (inner i n)) :
    KeepsE E I (matchSimple U h inner n s) := by
  refine .step c (.ite ?_ ?_)
  · cases s with
    | pseudo name arg sel => exact matchPseudo_keeps c inner n name arg sel hk fun h1 h2 => hin sel ⟨h1, h2, rfl⟩
    | _ => exact .pure
  · cases s with
    | pseudo name arg sel => exact matchPseudo_keeps c inner n name arg sel hk fun h1 h2 => hin sel ⟨h1, h2, rfl⟩
    | cls x => exact .bind (classTokens_keeps c n) fun _ => .pure
    | attr a op => exact matchAttr_keeps c n a op
    | _ => exact .pure

theorem matchSimples_keeps (c : Closed I d) (inner : Sel → Nat → SM Bool) (n : Nat) (l : List Simple)
    (hk : ∀ s ∈ l, KnownSimple s ∨ (E .unsupported ∧ E .noArg)) (hin : ∀ s ∈ l, ∀ i, Negates i s → KeepsE E I (inner i n)) :
    KeepsE E I (matchSimples U h inner n l) := by
  induction l with
  | nil => exact .pure
  | cons s l ih =>
    exact and_keeps (matchSimple_keeps c inner n s (hk s (by simp)) (hin s (by simp))) (ih (fun s hs => hk s (by simp [hs])) fun s hs => hin s (by simp [hs]))

theorem matchCompound_keepsE (c : Closed I d) (inner : Sel → Nat → SM Bool) (n : Nat) (C : Compound)
    (hk : ∀ s ∈ C.simples, KnownSimple s ∨ (E .unsupported ∧ E .noArg)) (hin : ∀ s ∈ C.simples, ∀ i, Negates i s → KeepsE E I (inner i n)) :
    KeepsE E I (matchCompound U h inner n C) := matchSimples_keeps c inner n _ hk hin

theorem matchCompound_keeps (c : Closed I d) (inner : Sel → Nat → SM Bool) (hin : ∀ s n, Keeps I (inner s n)) (n : Nat) (C : Compound) :
    Keeps I (matchCompound U h inner n C) := matchCompound_keepsE c inner n C (fun _ _ => .inr ⟨trivial, trivial⟩) fun _ _ i _ => hin i n

theorem ancLoop_keeps (c : Closed I d) (inner : Sel → Nat → SM Bool) (e : Nat) (C : Compound) (hC : ∀ n, KeepsE E I (matchCompound U h inner n C)) (f : Nat) :
    ∀ visited path cur, KeepsE E I (ancLoop U h inner e C f visited path cur) := by
  induction f with
  | zero => intro visited path cur; exact .fail BudgetC.budget.steps
  | succ f ih =>
    intro visited path cur
    cases cur with
    | none => exact .pure
    | some a =>
      refine .step c (.ite .pure (.bind .get ?_))
      rintro (_ | r)
      · exact .bind (hC a) fun _ => .ite .pure (ih _ _ _)
      · exact .pure

theorem closestAnc_keeps (c : Closed I d) (inner : Sel → Nat → SM Bool) (e : Nat) (he : e < d) (C : Compound) (hC : ∀ n, KeepsE E I (matchCompound U h inner n C)) (n : Nat) :
    KeepsE E I (closestAnc U h inner e C n) := by
  refine .bind .get ?_
  rintro (_ | r)
  · refine .bind .get fun s => .bind (ancLoop_keeps c inner e C hC _ _ _ _) fun r => .bind (.set fun x hx => c.anc x _ hx ?_) fun _ => .pure
    intro k e' n' hd
    rw [if_neg]
    rintro ⟨_, h2, _⟩
    omega
  · exact .pure

theorem prevElement_keeps (c : Closed I d) (n : Nat) : KeepsE E I (prevElement U h n) := by
  unfold prevElement
  cases (h.obj n).parent with
  | none => exact .pure
  | some p => exact .bind (parentData_keeps c p) fun _ => .pure

theorem prevLoop_keeps (c : Closed I d) (inner : Sel → Nat → SM Bool) (C : Compound) (hC : ∀ n, KeepsE E I (matchCompound U h inner n C)) (l : List Nat) :
    ∀ m last, KeepsE E I (prevLoop U h inner C m last l) := by
  induction l with
  | nil => intro m last; exact .pure
  | cons x l ih =>
    intro m last
    exact .step c (.ite (ih _ _) (.bind (hC x) fun _ => .ite (ih _ _) (ih _ _)))

theorem prevCached_keeps (c : Closed I d) (inner : Sel → Nat → SM Bool) (e : Nat) (C : Compound) (hC : ∀ n, KeepsE E I (matchCompound U h inner n C)) (n p : Nat) :
    KeepsE E I (prevCached U h inner e C n p) := by
  refine .bind .get ?_
  rintro (_ | r)
  · exact .bind (prevLoop_keeps c inner C hC _ _ _) fun m => .bind (.set fun x hx => c.prev x _ hx) fun _ => .pure
  · exact .pure

theorem prevMatching_keeps (c : Closed I d) (inner : Sel → Nat → SM Bool) (e : Nat) (C : Compound) (hC : ∀ n, KeepsE E I (matchCompound U h inner n C)) (n : Nat) :
    KeepsE E I (prevMatching U h inner e C n) := by
  unfold prevMatching
  cases (h.obj n).parent with
  | none => exact .pure
  | some p =>
    dsimp only
    cases compoundTag C.simples with
    | none => exact prevCached_keeps c inner e C hC n p
    | some t => exact .bind (childNames_keeps c p) fun _ => .ite (prevCached_keeps c inner e C hC n p) .pure

omit [BudgetC E] in
theorem last_partOf (x : Complex) : Spec.PartOf x.last x := by
  cases x with
  | one c => exact .one
  | comb l o c => exact .last

theorem matchChain_keepsE (c : Closed I d) (inner : Sel → Nat → SM Bool) (e : Nat) (he : e < d) (x : Complex)
    (hx : ∀ C, Spec.PartOf C x → ∀ n, KeepsE E I (matchCompound U h inner n C)) : ∀ n, KeepsE E I (matchChain U h inner e x n) := by
  induction x using complex_ind with
  | h1 C => intro n; rw [matchChain]; exact .pure
  | h2 left o C ih =>
    intro n
    have ih := ih fun D hD => hx D (.left hD)
    have hl := hx left.last (.left (last_partOf left))
    cases o with
    | desc =>
      rw [matchChain]
      refine .bind (closestAnc_keeps c inner e he _ hl n) ?_
      rintro (_ | a)
      · exact .pure
      · exact ih a
    | child =>
      rw [matchChain]
      cases (h.obj n).parent with
      | none => exact .pure
      | some p => exact .bind (hl p) fun _ => .ite (ih p) .pure
    | adj =>
      rw [matchChain]
      refine .bind (prevElement_keeps c n) ?_
      rintro (_ | s)
      · exact .pure
      · exact .bind (hl s) fun _ => .ite (ih s) .pure
    | sib =>
      rw [matchChain]
      refine .bind (prevMatching_keeps c inner e _ hl n) ?_
      rintro (_ | s)
      · exact .pure
      · exact ih s

theorem matchComplex_keepsE (c : Closed I d) (inner : Sel → Nat → SM Bool) (e : Nat) (he : e < d) (x : Complex)
    (hx : ∀ C, Spec.PartOf C x → ∀ n, KeepsE E I (matchCompound U h inner n C)) (n : Nat) :
    KeepsE E I (matchComplex U h inner e x n) := .bind (hx x.last (last_partOf x) n) fun _ => .ite (matchChain_keepsE c inner e he x hx n) .pure

theorem matchAny_keepsE (c : Closed I d) (inner : Sel → Nat → SM Bool) (e : Nat) (n : Nat) (l : Sel)
    (hl : ∀ x ∈ l, KeepsE E I (matchComplex U h inner e x n)) : KeepsE E I (matchAny U h inner e n l) := by
  induction l with
  | nil => exact .pure
  | cons x l ih => exact .step c (.bind (hl x (by simp)) fun _ => .ite .pure (ih fun y hy => hl y (by simp [hy])))

theorem matchSel_stepE (c : Closed I d) (e : Nat) (sel : Sel) (n : Nat)
    (hl : ∀ x ∈ sel, KeepsE E I (matchComplex U h (matchSel U h e) e x n)) : KeepsE E I (matchSel U h (e + 1) sel n) := by
  match sel, hl with
  | [], hl => rw [matchSel]; exact .step c (matchAny_keepsE c _ e n [] hl); simp
  | [x], hl => rw [matchSel]; exact .step c (hl x (by simp))
  | x :: y :: l, hl => rw [matchSel]; exact .step c (matchAny_keepsE c _ e n _ hl); simp

theorem partOf_simples {C : Compound} {x : Complex} (hC : Spec.PartOf C x) : ∀ D ∈ compoundParts C, D ∈ complexParts x := by
  induction hC with
  | one => intro D hD; exact hD
  | last => intro D hD; rw [complexParts]; exact List.mem_append_right _ hD
  | left _ ih => intro D hD; rw [complexParts]; exact List.mem_append_left _ (ih D hD)

theorem partOf_nest {C : Compound} {x : Complex} (hC : Spec.PartOf C x) : compoundNest C ≤ complexNest x := by
  induction hC with
  | one => exact Nat.le_refl _
  | last => rw [complexNest]; omega
  | left _ ih => rw [complexNest]; omega

/-- Everything at once: known pseudo-classes raise nothing but budget errors, and no selector that is not nested too deeply raises the depth error. -/
theorem matchSel_keepsE (c : Closed I d) : ∀ e, e ≤ d → ∀ sel, (∀ C ∈ selParts sel, ∀ s ∈ C.simples, KnownSimple s ∨ (E .unsupported ∧ E .noArg)) →
    (selNest sel < e ∨ E .depth) → ∀ n, KeepsE E I (matchSel U h e sel n) := by
  intro e
  induction e with
  | zero => intro _ sel _ hd n; rw [matchSel]; exact .step c (.fail (hd.resolve_left (by omega)))
  | succ e ih =>
    intro he sel hk hd n
    refine matchSel_stepE c e sel n fun x hx => matchComplex_keepsE c _ e (by omega) x (fun C hC m => ?_) n
    refine matchCompound_keepsE c _ m C (hk C (selParts_mem hx C (partOf_simples hC C (self_part C)))) fun s hs i hi => ?_
    obtain ⟨h1, h2, _⟩ := negates_facts (U := U) (h := h) (unq := unquoteArg U) hs hi
    refine ih (by omega) i (fun D hD => hk D (selParts_mem hx D (partOf_simples hC D (h1 D hD)))) (hd.imp (fun h' => ?_) id) m
    have := selNest_mem hx
    have := partOf_nest hC
    omega

theorem matchSel_keeps (c : Closed I d) (e : Nat) (he : e ≤ d) (sel : Sel) (n : Nat) : Keeps I (matchSel U h e sel n) :=
  matchSel_keepsE c e he sel (fun _ _ _ _ => .inr ⟨trivial, trivial⟩) (.inr trivial) n

theorem queryLoop_keeps (c : Closed I d) (test : Nat → SM Bool) (ht : ∀ n, KeepsE E I (test n)) (f : Nat) : ∀ st vis acc, KeepsE E I (queryLoop h test f st vis acc) := by
  induction f with
  | zero => intro st vis acc; exact .fail BudgetC.budget.steps
  | succ f ih =>
    intro st vis acc
    cases st with
    | nil => exact .pure
    | cons n st => exact .step c (.ite (ih _ _ _) (.bind (ht n) fun _ => ih _ _ _))

end JH
