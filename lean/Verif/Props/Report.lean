import Verif.Props.SanReport
import Verif.Props.SanIdem
import Verif.Props.Policy
import Verif.Spec.Report
/-! C99: what the sanitizer removes is reported. -/
namespace JH
open Spec

/-! ### Handlers -/

theorem reportAll_eq (h : Handler) (fs : List Finding) : reportAll h fs = handleAll h (fs.map fun f => (f.msg, none, none)) := by
  induction fs generalizing h with
  | nil => rfl
  | cons f fs ih =>
    simp only [reportAll, List.map_cons, handleAll]
    cases h.handle f.msg none none with
    | error e => rfl
    | ok h' => exact ih h'

theorem sanitizeRootR_fst (S : SanEnv) (C : SanCfg) (root : Node) : (sanitizeRootR S C root).1 = sanitizeRoot S C root := by
  have key : ∀ n, (∀ k, n ≠ .doc k) → (sanitizeRootR S C n).1 = sanitizeRoot S C n := by
    intro n hn
    cases n with
    | doc k => exact absurd rfl (hn k)
    | _ =>
      simp only [sanitizeRootR, sanitizeRoot, sanitizeKidsR_fst]
      generalize sanitizeKids S C _ = l
      rcases l with _ | ⟨a, _ | ⟨b, t⟩⟩ <;> rfl
  cases root with
  | doc k => simp only [sanitizeRootR, sanitizeRoot, sanitizeKidsR_fst]
  | _ => exact key _ (by simp)

/-- C99: in raise mode the call raises, with the message of the first finding, if there is any finding; otherwise it returns the
sanitized tree. -/
theorem C99_raise (S : SanEnv) (C : SanCfg) (h : Handler) (hm : h.mode = .raise) (root : Node) :
    (∀ f fs, (sanitizeRootR S C root).2 = f :: fs → sanitizeDom S C h root = .error f.msg) ∧
    ((sanitizeRootR S C root).2 = [] → sanitizeDom S C h root = .ok (sanitizeRoot S C root, h)) := by
  have h0 : (if h.mode = .collect then h.reset else h) = h := if_neg (by rw [hm]; decide)
  unfold sanitizeDom
  dsimp only
  rw [h0, reportAll_eq, sanitizeRootR_fst]
  refine ⟨?_, ?_⟩
  · intro f fs e
    rw [e, List.map_cons, C36_raise h hm]
  · intro e
    rw [e]
    rfl

/-- C99: in collect mode the call returns the sanitized tree, and the collected findings are exactly the reports of this call, in the
order in which they were made. -/
theorem C99_collect (S : SanEnv) (C : SanCfg) (h : Handler) (hm : h.mode = .collect) (root : Node) :
    ∃ h', sanitizeDom S C h root = .ok (sanitizeRoot S C root, h') ∧
      h'.collected = (sanitizeRootR S C root).2.map fun f => finding f.msg none none := by
  obtain ⟨h', e, hs, -, -⟩ := C36_collect h hm ((sanitizeRootR S C root).2.map fun f => (f.msg, none, none))
  refine ⟨h', ?_, ?_⟩
  · unfold sanitizeDom
    dsimp only
    rw [if_pos hm, reportAll_eq, e, sanitizeRootR_fst]
  · rw [List.map_map] at hs
    have key : ∀ l : List PErr, (∀ x ∈ l, x.line = none ∧ x.col = none) → ∃ p, l.filter (pos · = p) = l := by
      intro l hl
      cases l with
      | nil => exact ⟨(0, 0), rfl⟩
      | cons a l =>
        refine ⟨pos a, List.filter_eq_self.2 ?_⟩
        intro x hx
        have h1 := hl x hx
        have h2 := hl a (by simp)
        simp [pos, h1.1, h1.2, h2.1, h2.2]
    have hall : ∀ x ∈ (sanitizeRootR S C root).2.map ((fun f : Str × Option Nat × Option Nat => finding f.1 f.2.1 f.2.2) ∘ fun f => (f.msg, none, none)),
        x.line = none ∧ x.col = none := by
      intro x hx
      obtain ⟨f, -, rfl⟩ := List.mem_map.1 hx
      exact ⟨rfl, rfl⟩
    have hall' : ∀ x ∈ h'.collected, x.line = none ∧ x.col = none := fun x hx => hall x (hs.perm.mem_iff.1 hx)
    have hst := hs.stable
    generalize hg : (sanitizeRootR S C root).2.map ((fun f : Str × Option Nat × Option Nat => finding f.1 f.2.1 f.2.2) ∘ fun f => (f.msg, none, none)) = L at hall hst
    have : h'.collected = L := by
      cases L with
      | nil => exact List.Perm.eq_nil (by rw [hg] at hs; exact hs.perm)
      | cons a L =>
        have := hst (pos a)
        rw [List.filter_eq_self.2, List.filter_eq_self.2] at this
        · exact this
        · intro x hx
          have h1 := hall x hx
          have h2 := hall a (by simp)
          simp [pos, h1.1, h1.2, h2.1, h2.2]
        · intro x hx
          have h1 := hall' x hx
          have h2 := hall a (by simp)
          simp [pos, h1.1, h1.2, h2.1, h2.2]
    rw [this, ← hg]
    rfl

/-! ### Everything that is visible is reported -/

theorem seqF_false {a : List Node × Bool} (h : a.2 = false) (fa fb : List Finding) : seqF a fa fb = fa ++ fb := by
  unfold seqF; rw [h]; rfl

theorem repsL_mem (S : SanEnv) (C : SanCfg) (hoist fc : Bool) : ∀ (l : List Node), EverywhereL (fun m => S.unclosed m = false) l →
    ∀ n ∈ l, ∀ f ∈ reps S C hoist fc n, f ∈ repsL S C hoist fc l := by
  intro l
  induction l with
  | nil => simp
  | cons a l ih =>
    intro hE n hn f hf
    simp only [EverywhereL] at hE
    rw [repsL, seqF_false (clean_flag S C a hoist fc hE.1)]
    rcases List.mem_cons.1 hn with rfl | hn
    · exact List.mem_append_left _ hf
    · exact List.mem_append_right _ (ih hE.2 n hn f hf)

/-- The reports about the inside of a plain element that is not dropped are among those of the element. -/
theorem reps_inside (S : SanEnv) (C : SanCfg) (hoist : Bool) (name : Str) (ns : Option Str) (as : Attrs) (kids : List Node) (tpl : Bool)
    (content : List Node) (hp : ProperName name) (hf : ¬ Foreign S.E.U.lower (.elem name ns as kids tpl content))
    (hg : droppedTag S.E.U C (.elem name ns as kids tpl content) = false)
    (hE : Everywhere (fun m => S.unclosed m = false) (.elem name ns as kids tpl content)) :
    ∃ h', (∀ f ∈ repsL S C h' false kids, f ∈ reps S C hoist false (.elem name ns as kids tpl content)) ∧
      (tpl = true → ∀ f ∈ repsL S C h' false content, f ∈ reps S C hoist false (.elem name ns as kids tpl content)) := by
  simp only [Everywhere] at hE
  have hs := (special_iff name ns as kids tpl content).2 hp
  have hF : isForeign S.E.U (.elem name ns as kids tpl content) = false := by
    rw [← isForeign_iff _ _ _ _ _ _ _ hs] at hf; simpa using hf
  have hdd : decision S.E.U C name ≠ .drop := fun h => by
    rw [(decision_drop_iff S.E.U C name ns as kids tpl content).1 h] at hg; simp at hg
  have hfl := cleanL_flag S C kids true false hE.2.1
  have hfl2 : (if tpl then cleanL S C true false content else (([], false) : List Node × Bool)).2 = false := by
    by_cases ht : tpl = true
    · rw [if_pos ht]; exact cleanL_flag S C content true false (hE.2.2 ht)
    · rw [if_neg ht]
  have hpl : reps S C hoist false (.elem name ns as kids tpl content) = match decision S.E.U C name with
      | .keep => attrsF S C name as ++ (repsL S C false false kids ++ (if tpl then repsL S C false false content else []))
      | .drop => tagFindings S.E.U C name
      | .unwrap => tagFindings S.E.U C name ++ (repsL S C true false kids ++ (if tpl then repsL S C true false content else []))
      | .escape =>
        tagFindings S.E.U C name ++ (tagTextF C (S.startText (.elem name ns as kids tpl content)) ++
          ((repsL S C true false kids ++ (if tpl then repsL S C true false content else [])) ++
            tagTextF C (S.endText (.elem name ns as kids tpl content)))) := by
    simp only [reps]
    rw [if_neg (by simp [hs]), if_neg (by simp [hF]), hF]
    rw [seqF_false hfl, seqF_false (cutSeq_flag hfl hfl2)]
    rfl
  generalize hd : decision S.E.U C name = d at hpl hdd
  cases d with
  | drop => exact absurd rfl hdd
  | keep =>
    refine ⟨false, ?_, ?_⟩
    · intro f h; rw [hpl]; simp [h]
    · intro ht f h; rw [hpl]; simp [h, ht]
  | unwrap =>
    refine ⟨true, ?_, ?_⟩
    · intro f h; rw [hpl]; simp [h]
    · intro ht f h; rw [hpl]; simp [h, ht]
  | escape =>
    refine ⟨true, ?_, ?_⟩
    · intro f h; rw [hpl]; simp [h]
    · intro ht f h; rw [hpl]; simp [h, ht]

theorem visible_reps (S : SanEnv) (C : SanCfg) (m : Node) {l : List Node} (h : Visible S.E.U C m l) :
    EverywhereL (fun m => S.unclosed m = false) l → ∀ hoist, ∃ h', ∀ f ∈ reps S C h' false m, f ∈ repsL S C hoist false l := by
  induction h with
  | here hm => intro hE hoist; exact ⟨hoist, repsL_mem S C hoist false _ hE _ hm⟩
  | kid hm hp hf hg hr hv ih =>
    intro hE hoist
    have hE1 := everywhereL_mem hE _ hm
    obtain ⟨h1, hk, -⟩ := reps_inside S C hoist _ _ _ _ _ _ hp hf hg hE1
    simp only [Everywhere] at hE1
    obtain ⟨h', h2⟩ := ih hE1.2.1 h1
    exact ⟨h', fun f hf => repsL_mem S C hoist false _ hE _ hm f (hk f (h2 f hf))⟩
  | content hm hp hf hg hr hv ih =>
    intro hE hoist
    have hE1 := everywhereL_mem hE _ hm
    obtain ⟨h1, -, hk⟩ := reps_inside S C hoist _ _ _ _ _ _ hp hf hg hE1
    simp only [Everywhere] at hE1
    obtain ⟨h', h2⟩ := ih (hE1.2.2 trivial) h1
    exact ⟨h', fun f hf => repsL_mem S C hoist false _ hE _ hm f (hk rfl f (h2 f hf))⟩
  | doc hm hv ih =>
    intro hE hoist
    have hE1 := everywhereL_mem hE _ hm
    simp only [Everywhere] at hE1
    obtain ⟨h', h2⟩ := ih hE1.2 false
    refine ⟨h', fun f hf => repsL_mem S C hoist false _ hE _ hm f ?_⟩
    rw [reps]; exact h2 f hf

/-- The reports of the walk over a root are among its findings. -/
theorem rootR_reps (S : SanEnv) (C : SanCfg) (root : Node) : ∀ f ∈ repsL S C false false (rootKids root), f ∈ (sanitizeRootR S C root).2 := by
  intro f hf
  have : (sanitizeRootR S C root).2 = (sanitizeKidsR S C (rootKids root)).2 := by cases root <;> rfl
  rw [this, sanitizeKidsR_snd]
  exact List.mem_append_left _ hf

theorem visible_root (S : SanEnv) (C : SanCfg) (root m : Node) (hv : Visible S.E.U C m [root]) (hm : ∀ k, m ≠ .doc k)
    (hE : Everywhere (fun m => S.unclosed m = false) root) : ∃ h', ∀ f ∈ reps S C h' false m, f ∈ (sanitizeRootR S C root).2 := by
  have hk : Visible S.E.U C m (rootKids root) := by
    cases root with
    | doc kids =>
      cases hv with
      | here h => exact absurd (List.mem_singleton.1 h) (hm _)
      | kid h => simp at h
      | content h => simp at h
      | doc h hv => simp only [List.mem_singleton, Node.doc.injEq] at h; subst h; exact hv
    | _ => exact hv
  obtain ⟨h', h⟩ := visible_reps S C m hk (everywhere_root hE) false
  exact ⟨h', fun f hf => rootR_reps S C root f (h f hf)⟩

/-- C99: each element that the policy does not allow and that does not disappear with a reported ancestor is reported by name. -/
theorem C99_tags_partial (S : SanEnv) (C : SanCfg) (root : Node) (hE : Everywhere (fun m => S.unclosed m = false) root)
    (name : Str) (ns : Option Str) (as : Attrs) (kids : List Node) (tpl : Bool) (content : List Node)
    (hv : Visible S.E.U C (.elem name ns as kids tpl content) [root]) (hp : ProperName name) (ha : S.E.U.lower name ∉ C.allowedTags) :
    ∃ f ∈ (sanitizeRootR S C root).2, Finding.NamesTag (S.E.U.lower name) f := by
  obtain ⟨h', h⟩ := visible_root S C root _ hv (by simp) hE
  have hs := (special_iff name ns as kids tpl content).2 hp
  have htag : ∃ f ∈ tagFindings S.E.U C name, Finding.NamesTag (S.E.U.lower name) f := by
    unfold tagFindings
    rw [if_neg (by simpa using ha)]
    split
    · exact ⟨_, List.mem_singleton.2 rfl, .inr (.inl rfl)⟩
    · exact ⟨_, List.mem_singleton.2 rfl, .inr (.inr rfl)⟩
  have hkeep : decision S.E.U C name ≠ .keep := fun e => ha (decision_keep e)
  have : ∃ f ∈ reps S C h' false (.elem name ns as kids tpl content), Finding.NamesTag (S.E.U.lower name) f := by
    simp only [reps]
    rw [if_neg (by simp [hs])]
    split
    · exact ⟨_, List.mem_singleton.2 rfl, .inl rfl⟩
    · obtain ⟨f, hf, hn⟩ := htag
      refine ⟨f, ?_, hn⟩
      cases hd : decision S.E.U C name with
      | keep => exact absurd hd hkeep
      | drop => exact hf
      | unwrap => exact List.mem_append_left _ hf
      | escape => exact List.mem_append_left _ hf
  obtain ⟨f, hf, hn⟩ := this
  exact ⟨f, h f hf, hn⟩

/-- C99: a foreign element (by namespace or name) that is not hoisted out of a removed element is reported even when its name is allowed.
Here: a child of the root. -/
theorem C99_foreign_partial (S : SanEnv) (C : SanCfg) (kids0 : List Node) (hE : EverywhereL (fun m => S.unclosed m = false) kids0)
    (name : Str) (ns : Option Str) (as : Attrs) (kids : List Node) (tpl : Bool) (content : List Node)
    (hm : Node.elem name ns as kids tpl content ∈ kids0) (hp : ProperName name) (hf : Foreign S.E.U.lower (.elem name ns as kids tpl content)) :
    .foreign (S.E.U.lower name) ∈ (sanitizeRootR S C (.doc kids0)).2 := by
  apply rootR_reps
  apply repsL_mem S C false false kids0 hE _ hm
  have hs := (special_iff name ns as kids tpl content).2 hp
  have hF : isForeign S.E.U (.elem name ns as kids tpl content) = true := (isForeign_iff _ _ _ _ _ _ _ hs).2 hf
  simp only [reps]
  rw [if_neg (by simp [hs]), if_pos (by simp [hF])]
  simp

/-- C99: comments, processing instructions and doctypes that the policy drops, and texts whose invisible characters it removes, are
reported (in `escape` mode comments are turned into text instead, see `C99_escaped_comment_fails`). -/
theorem C99_other_partial (S : SanEnv) (C : SanCfg) (root : Node) (hE : Everywhere (fun m => S.unclosed m = false) root) (m : Node)
    (hv : Visible S.E.U C m [root]) :
    (C.dropComments = true → C.handling ≠ .escape → ((∃ d, m = .comment d) ∨ ∃ d, m = .pi d) → .comment ∈ (sanitizeRootR S C root).2) ∧
    (C.dropDoctype = true → (∃ a b c, m = .doctype a b c) → .doctype ∈ (sanitizeRootR S C root).2) ∧
    (C.stripInv = true → (∃ d, m = .text d ∧ ∃ c ∈ d, Invisible c) → .invisibleText ∈ (sanitizeRootR S C root).2) := by
  refine ⟨?_, ?_, ?_⟩
  · intro hC hH hm
    obtain ⟨h', h⟩ := visible_root S C root _ hv (by rintro k rfl; simp at hm) hE
    apply h
    rcases hm with ⟨d, rfl⟩ | ⟨d, rfl⟩ <;> simp [reps, hC, commentF, hH]
  · rintro hC ⟨a, b, c, rfl⟩
    obtain ⟨h', h⟩ := visible_root S C root _ hv (by simp) hE
    apply h
    simp [reps, hC]
  · rintro hC ⟨d, rfl, c, hc, hi⟩
    obtain ⟨h', h⟩ := visible_root S C root _ hv (by simp) hE
    apply h
    simp only [reps, textF]
    rw [if_pos ⟨hC, fun e => (strip_id_iff d).1 e c hc hi⟩]
    exact List.mem_singleton.2 rfl

/-! ### Attributes -/

/-- Some attribute has this name. -/
def HasKey (k : Str) (d : Attrs) : Prop := ∃ v, (k, v) ∈ d

theorem hasKey_dictSet {k k2 : Str} {v2 : Option Str} {d : Attrs} (h : HasKey k d) : HasKey k (dictSet k2 v2 d) := by
  obtain ⟨v, hv⟩ := h
  by_cases e : k = k2
  · subst e; exact ⟨v2, mem_dictSet_self _ _ _⟩
  · exact ⟨v, mem_dictSet_ne hv e⟩

theorem hasKey_self (k : Str) (v : Option Str) (d : Attrs) : HasKey k (dictSet k v d) := ⟨v, mem_dictSet_self _ _ _⟩

theorem hasKey_fold {α : Type} (g : Attrs → α → Attrs) (hg : ∀ k d a, HasKey k d → HasKey k (g d a)) (l : List α) (k : Str) :
    ∀ d, HasKey k d → HasKey k (l.foldl g d) := by
  induction l with
  | nil => intro d h; exact h
  | cons a l ih => intro d h; exact ih _ (hg k d a h)

theorem allow_key (U : Uni) (attrs : List (Str × List Str)) (tag : Str) (as : Attrs) (k : Str) (v : Option Str) (h : (k, v) ∈ as)
    (hb : stripP U.isSpace k ≠ []) :
    .attr (U.lower k) ∈ allowFindings U attrs tag as ∨ HasKey k (allowlistAttrs U attrs tag as) ∨ HasKey (U.lower k) (allowlistAttrs U attrs tag as) := by
  unfold allowFindings allowlistAttrs
  dsimp only
  split
  · exact .inr (.inl ⟨v, h⟩)
  · have hmono : ∀ k d a, HasKey k d → HasKey k (allowStep U (allowedFor U attrs tag) d a) := by
      intro k d a hk
      unfold allowStep
      split
      · exact hk
      · split
        · exact hasKey_dictSet hk
        · split
          · exact hasKey_dictSet hk
          · exact hk
    by_cases hin : k ∈ allowedFor U attrs tag ∨ U.lower k ∈ allowedFor U attrs tag
    · right
      have go : ∀ (l d : Attrs), (k, v) ∈ l → HasKey k (l.foldl (allowStep U (allowedFor U attrs tag)) d) ∨
          HasKey (U.lower k) (l.foldl (allowStep U (allowedFor U attrs tag)) d) := by
        intro l
        induction l with
        | nil => intro d h; simp at h
        | cons a l ih =>
          intro d h
          rw [List.foldl_cons]
          rcases List.mem_cons.1 h with e | h
          · subst e
            by_cases h1 : k ∈ allowedFor U attrs tag
            · left
              apply hasKey_fold _ hmono
              unfold allowStep
              rw [if_neg (by simpa using hb), if_pos (by simpa using h1)]
              exact hasKey_self _ _ _
            · right
              apply hasKey_fold _ hmono
              unfold allowStep
              rw [if_neg (by simpa using hb), if_neg (by simpa using h1), if_pos (by simpa using hin.resolve_left h1)]
              exact hasKey_self _ _ _
          · exact ih _ h
      exact go as [] h
    · left
      rw [List.mem_flatMap]
      refine ⟨(k, v), h, ?_⟩
      rw [if_neg (by simpa using hb), if_neg (by simpa using fun e => hin (.inl e)), if_neg (by simpa using fun e => hin (.inr e))]
      exact List.mem_singleton.2 rfl

/-- The URL transform drops an attribute exactly when it reports it. -/
theorem urlFinding_act (E : UrlEnv) (p : UrlPolicy) (tag : Str) (as : Attrs) (k : Str) (v : Option Str) :
    (urlFinding E p tag as k v = [] ∧ urlAct E p tag as k v ≠ .drop) ∨
    (urlAct E p tag as k v = .drop ∧ (urlFinding E p tag as k v = [.url (E.U.lower k)] ∨ urlFinding E p tag as k v = [.urlNoRule (E.U.lower k)])) := by
  unfold urlFinding urlAct
  dsimp only
  generalize isSinkAttr (E.U.lower k) = b
  generalize urlRuleFor p tag (E.U.lower k) = r
  generalize sinkKind E.U tag (E.U.lower k) as = kd
  cases b with
  | false =>
    cases r with
    | none => left; simp
    | some r =>
      cases v with
      | none => right; simp
      | some v =>
        dsimp only [if_false, Bool.false_eq_true]
        simp only [Bool.false_eq_true, if_false]
        cases sinkValue E p r tag (E.U.lower k) .url v with
        | none => right; simp
        | some s => left; simp
  | true =>
    cases kd with
    | none => cases r <;> (left; simp)
    | some kd =>
      cases r with
      | none => cases v <;> (right; simp)
      | some r =>
        cases v with
        | none => right; simp
        | some v =>
          simp only [if_true]
          cases sinkValue E p r tag (E.U.lower k) kd v with
          | none => right; simp
          | some s => left; simp

theorem url_key (E : UrlEnv) (p : UrlPolicy) (name : Str) (as : Attrs) (k : Str) (h : HasKey k as) :
    (.url (E.U.lower k) ∈ urlFindings E p name as ∨ .urlNoRule (E.U.lower k) ∈ urlFindings E p name as) ∨
    HasKey k (dropUrlAttrs E p name as) ∨ HasKey (E.U.lower k) (dropUrlAttrs E p name as) := by
  obtain ⟨v, h⟩ := h
  have hmono : ∀ k d (a : Str × Option Str), HasKey k d → HasKey k (match urlAct E p (E.U.lower name) as a.1 a.2 with
      | .set s => dictSet (E.U.lower a.1) (some s) d | _ => d) := by
    intro k d a hk
    cases urlAct E p (E.U.lower name) as a.1 a.2 with
    | set s => exact hasKey_dictSet hk
    | _ => exact hk
  rcases urlFinding_act E p (E.U.lower name) as k v with ⟨-, hnd⟩ | ⟨-, hf⟩
  · right
    unfold dropUrlAttrs
    dsimp only
    cases ha : urlAct E p (E.U.lower name) as k v with
    | drop => exact absurd ha hnd
    | keep =>
      left
      apply hasKey_fold _ hmono
      exact ⟨v, List.mem_filter.2 ⟨h, by simp [ha]⟩⟩
    | set s =>
      right
      have go : ∀ (l d : Attrs), (k, v) ∈ l → HasKey (E.U.lower k) (l.foldl (fun out a => match urlAct E p (E.U.lower name) as a.1 a.2 with
          | .set s => dictSet (E.U.lower a.1) (some s) out | _ => out) d) := by
        intro l
        induction l with
        | nil => intro d h; simp at h
        | cons a l ih =>
          intro d h
          rw [List.foldl_cons]
          rcases List.mem_cons.1 h with e | h
          · subst e
            apply hasKey_fold _ hmono
            dsimp only
            rw [ha]
            exact hasKey_self _ _ _
          · exact ih _ h
      exact go as _ h
  · left
    unfold urlFindings
    rcases hf with hf | hf
    · exact .inl (List.mem_flatMap.2 ⟨(k, v), h, by rw [hf]; exact List.mem_singleton.2 rfl⟩)
    · exact .inr (List.mem_flatMap.2 ⟨(k, v), h, by rw [hf]; exact List.mem_singleton.2 rfl⟩)

theorem style_key (E : UrlEnv) (C : SanCfg) (name : Str) (as : Attrs) (k : Str) (h : HasKey k as) :
    (.style ∈ styleFindings E C name as ∧ E.U.lower k = c%"style") ∨ HasKey k (styleAttrs E C name as) ∨ HasKey (E.U.lower k) (styleAttrs E C name as) := by
  unfold styleFindings styleAttrs
  split
  · exact .inr (.inl h)
  · cases hf : as.find? fun p => E.U.lower p.1 = c%"style" with
    | none => exact .inr (.inl h)
    | some q =>
      obtain ⟨k1, v1⟩ := q
      have hk1 : E.U.lower k1 = c%"style" := by simpa using List.find?_some hf
      obtain ⟨v, hv⟩ := h
      dsimp only
      cases v1.bind (sanitizeStyle E C.cssProps (some C.url) (E.U.lower name)) with
      | none =>
        by_cases e : k = k1
        · exact .inl ⟨List.mem_singleton.2 rfl, by rw [e, hk1]⟩
        · exact .inr (.inl ⟨v, List.mem_filter.2 ⟨hv, by simpa using e⟩⟩)
      | some st =>
        dsimp only
        by_cases e : k = k1
        · right; right
          rw [e, hk1]
          exact hasKey_self _ _ _
        · right; left
          apply hasKey_dictSet
          split
          · exact ⟨v, hv⟩
          · exact ⟨v, List.mem_filter.2 ⟨hv, by simpa using e⟩⟩

theorem merge_key (U : Uni) (tokens : List Str) (name : Str) (as : Attrs) (k : Str) (h : HasKey k as) :
    HasKey k (mergeRel U tokens name as) ∨ HasKey (U.lower k) (mergeRel U tokens name as) := by
  unfold mergeRel
  split
  · exact .inl h
  · dsimp only
    split
    · obtain ⟨v, hv⟩ := h
      by_cases e : U.lower k = c%"rel" ∧ k ≠ c%"rel"
      · right; rw [e.1]; exact hasKey_self _ _ _
      · left
        apply hasKey_dictSet
        refine ⟨v, List.mem_filter.2 ⟨hv, ?_⟩⟩
        simp only [Bool.not_eq_true', Bool.and_eq_false_iff, decide_eq_false_iff_not]
        by_cases h1 : U.lower k = c%"rel"
        · exact .inr (fun h2 => e ⟨h1, h2⟩)
        · exact .inl h1
    · exact .inl h

/-- Each attribute of a kept element is still there (up to case), or reported. -/
theorem attrs_kept_or_reported (S : SanEnv) (C : SanCfg) (name : Str) (as : Attrs) (k : Str) (v : Option Str) (h : (k, v) ∈ as)
    (hb : stripP S.E.U.isSpace k ≠ []) :
    (∃ f ∈ attrsF S C name as, Finding.NamesAttr (S.E.U.lower k) f) ∨ HasKey k (postAttrs S C name as) ∨ HasKey (S.E.U.lower k) (postAttrs S C name as) := by
  have h1 : ∃ v1, (k, v1) ∈ (if C.stripInv then stripAttrs as else as) := by
    split
    · exact ⟨_, List.mem_map.2 ⟨_, h, rfl⟩⟩
    · exact ⟨_, h⟩
  obtain ⟨v1, h1⟩ := h1
  have hid := S.E.U.lower_idem k
  generalize hA : (if C.stripInv then stripAttrs as else as) = A at h1
  have hin : ∀ f ∈ editFindings S C name A, f ∈ attrsF S C name as := by
    intro f hf; unfold attrsF; rw [hA]; exact List.mem_append_right _ hf
  -- the names at the various stages
  let K : Attrs → Prop := fun d => HasKey k d ∨ HasKey (S.E.U.lower k) d
  have s1 : (.attr (S.E.U.lower k) ∈ allowFindings S.E.U (effAttrs C) name A) ∨ K (allowlistAttrs S.E.U (effAttrs C) name A) :=
    allow_key S.E.U (effAttrs C) name A k v1 h1 hb
  have s2 : ∀ d, K d → (.url (S.E.U.lower k) ∈ urlFindings S.E C.url name d ∨ .urlNoRule (S.E.U.lower k) ∈ urlFindings S.E C.url name d) ∨
      K (dropUrlAttrs S.E C.url name d) := by
    intro d hd
    rcases hd with hd | hd
    · exact url_key S.E C.url name d k hd
    · have := url_key S.E C.url name d _ hd
      rw [hid] at this
      rcases this with h | h | h
      · exact .inl h
      · exact .inr (.inr h)
      · exact .inr (.inr h)
  have s3 : ∀ d, K d → (.style ∈ styleFindings S.E C name d ∧ S.E.U.lower k = c%"style") ∨ K (styleAttrs S.E C name d) := by
    intro d hd
    rcases hd with hd | hd
    · exact style_key S.E C name d k hd
    · have := style_key S.E C name d _ hd
      rw [hid] at this
      rcases this with h | h | h
      · exact .inl h
      · exact .inr (.inr h)
      · exact .inr (.inr h)
  have s4 : ∀ d, K d → K (mergeRel S.E.U C.forceRel name d) := by
    intro d hd
    rcases hd with hd | hd
    · exact merge_key _ _ _ _ _ hd
    · have := merge_key S.E.U C.forceRel name d _ hd
      rw [hid] at this
      exact .inr (this.elim id id)
  rcases s1 with h | h
  · exact .inl ⟨_, hin _ (by unfold editFindings; simp [h]), .inl rfl⟩
  rcases s2 _ h with (h | h) | h
  · exact .inl ⟨_, hin _ (by unfold editFindings; simp [h]), .inr (.inl rfl)⟩
  · exact .inl ⟨_, hin _ (by unfold editFindings; simp [h]), .inr (.inr (.inl rfl))⟩
  rcases s3 _ h with h | h
  · exact .inl ⟨_, hin _ (by unfold editFindings; simp [h.1]), .inr (.inr (.inr ⟨rfl, h.2⟩))⟩
  right
  show K (postAttrs S C name as)
  unfold postAttrs
  dsimp only
  rw [hA]
  split
  · exact h
  · exact s4 _ h

/-- C99: each allowed HTML element that does not disappear with a reported ancestor is in the result, and each of its attributes (whose
name is not blank) is still there, up to the case of its name, or reported by name. -/
theorem C99_attributes_partial (S : SanEnv) (C : SanCfg) (root : Node) (hE : Everywhere (fun m => S.unclosed m = false) root)
    (name : Str) (ns : Option Str) (as : Attrs) (kids : List Node) (tpl : Bool) (content : List Node)
    (hv : Visible S.E.U C (.elem name ns as kids tpl content) [root]) (hp : ProperName name)
    (hf : ¬ Foreign S.E.U.lower (.elem name ns as kids tpl content)) (ha : S.E.U.lower name ∈ C.allowedTags) :
    ∃ as' kids' content', Reach (.elem name ns as' kids' tpl content') [(sanitizeRootR S C root).1] ∧
      ∀ k v, (k, v) ∈ as → stripP S.E.U.isSpace k ≠ [] →
        (∃ v', (k, v') ∈ as' ∨ (S.E.U.lower k, v') ∈ as') ∨ ∃ f ∈ (sanitizeRootR S C root).2, Finding.NamesAttr (S.E.U.lower k) f := by
  obtain ⟨k', c', hr⟩ := visible_kept S C root hE name ns as kids tpl content hv hp hf ha
  refine ⟨_, k', c', by rw [sanitizeRootR_fst]; exact hr, ?_⟩
  obtain ⟨h', h⟩ := visible_root S C root _ hv (by simp) hE
  intro k v hkv hb
  rcases attrs_kept_or_reported S C name as k v hkv hb with ⟨f, hfm, hn⟩ | ⟨v', hv'⟩ | ⟨v', hv'⟩
  · refine .inr ⟨f, h f ?_, hn⟩
    have hs := (special_iff name ns as kids tpl content).2 hp
    have hF : isForeign S.E.U (.elem name ns as kids tpl content) = false := by
      rw [← isForeign_iff _ _ _ _ _ _ _ hs] at hf; simpa using hf
    simp only [reps]
    rw [if_neg (by simp [hs]), if_neg (by simp [hF]), (decision_keep_iff S.E.U C name ns as kids tpl content).2 (by simpa [Disallowed] using ha)]
    exact List.mem_append_left _ hfm
  · exact .inl ⟨v', .inl hv'⟩
  · exact .inl ⟨v', .inr hv'⟩

end JH
