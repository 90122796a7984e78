import Verif.Lemmas.EngFlowEnd
import Verif.Props.Serialize

/-! Reading the markup of a whole forest (C81). The four kinds of steps (text, comment, start tag, end tag) are hypotheses here (`Reader`), so that the
induction serves every configuration. -/
namespace JH.Eng
open JH.Spec

variable {C : Cfg} {anc : List Str} {s : St}

/-! ### What the serializer writes -/

mutual
/-- The markup of a good node. -/
def out : Node → Str
  | .text t => escapeText t
  | .comment d => c%"<!" ++ (c%"--" ++ (d ++ c%"-->"))
  | .elem name _ as kids _ _ =>
    '<' :: (name ++ (as.flatMap attrText ++ ('>' :: (if name ∈ emptyNames then [] else outL kids ++ ('<' :: '/' :: (name ++ c%">"))))))
  | _ => []
/-- The markup of good siblings. -/
def outL : List Node → Str
  | [] => []
  | n :: ns => out n ++ outL ns
end

theorem literal_own : ∀ x ∈ literalTextElements, x ∈ ownRules := by decide

theorem void_empty {name : Str} (hn : name ∉ ownRules) : voidElements.contains name = decide (name ∈ emptyNames) := by
  have h1 : ∀ x ∈ voidElements, x ∈ ownRules ∨ x ∈ emptyNames := by decide
  have h2 : ∀ x ∈ emptyNames, x ∈ voidElements := by decide
  rw [Bool.eq_iff_iff, decide_eq_true_iff, List.contains_iff_mem]
  exact ⟨fun h => (h1 _ h).resolve_left hn, h2 _⟩

theorem dropNL_of {s : Str} (h : '\n' ∉ s) : dropNL s = s := by
  unfold dropNL
  split
  · rename_i r e
    exact absurd (List.mem_reverse.1 (by rw [e]; simp : '\n' ∈ s.reverse)) h
  · rfl

theorem nl_name {s : Str} (h : ∀ c ∈ s, nameChar c) : '\n' ∉ s := fun hm => (h _ hm).2.2.2.1 rfl

theorem tagNameChar_plain {c : Char} (h : nameChar c) : tagNameChar c = true := by
  obtain ⟨_, _, h1, h2, h3, h4, h5, _, h6, h7⟩ := h
  simp [tagNameChar, h1, h2, h3, h4, h5, h6, h7]

theorem valid_tag {name : Str} (h : PlainTag name) : validTagName name = true := by
  unfold validTagName
  rw [dropNL_of (nl_name h.2)]
  obtain ⟨⟨c, r, e, h1, h2⟩, h3⟩ := h
  subst e
  dsimp only
  rw [Bool.and_eq_true, List.all_eq_true]
  refine ⟨?_, fun x hx => tagNameChar_plain (h3 x (List.mem_cons_of_mem _ hx))⟩
  have g1 : 97 ≤ c.toNat := h1
  have g2 : c.toNat ≤ 122 := h2
  simp [isAsciiAlpha, isLowerC, g1, g2]

theorem valid_attr {name : Str} (h : PlainAttr name) : validAttrName name = true := by
  unfold validAttrName
  rw [dropNL_of (nl_name fun c hc => (h.2 c hc).1), Bool.and_eq_true, List.all_eq_true]
  refine ⟨by simpa using h.1, fun x hx => ?_⟩
  unfold attrNameChar
  rw [tagNameChar_plain (h.2 x hx).1]
  simp [(h.2 x hx).2]

theorem startTag_good (U : Uni) {tag : Str} (ht : PlainTag tag) {as : List (Str × Option Str)} (h : GoodAttrs tag as) :
    serializeStartTag U {} tag as = some ('<' :: (tag ++ (as.flatMap attrText ++ c%">"))) := by
  cases ho : serializeStartTag U {} tag as with
  | some out => rw [startTag_text U ht h ho]
  | none =>
    unfold serializeStartTag at ho
    rw [valid_tag ht] at ho
    have : as.all (fun a => validAttrName a.1) = true := List.all_eq_true.2 fun a ha => valid_attr (h.2 a ha).1
    rw [this] at ho
    cases ho

mutual
theorem markup_out (U : Uni) (ctx : Option Str) (hctx : ∀ x ∈ ctx, (∀ c ∈ x, nameChar c) ∧ x ∉ ownRules) : ∀ (n : Node) (anc : List Str), Good anc n →
    markup U ctx n = some (out n)
  | .text t, anc, h => by
    rw [markup, out]
    congr 1
    unfold serializeTextFor
    cases ctx with
    | none => rfl
    | some x =>
      dsimp only
      rw [lower_plain U (hctx x rfl).1, if_neg (by rw [sub_own literal_own (hctx x rfl).2]; simp)]
  | .comment d, anc, h => by
    rw [markup, out, comment_text h]
    simp
  | .pi _, anc, h => by simp [Good] at h
  | .doctype _ _ _, anc, h => by simp [Good] at h
  | .doc _, anc, h => by simp [Good] at h
  | .elem name ns attrs kids tpl content, anc, h => by
    rw [Good] at h
    obtain ⟨rfl, rfl, rfl, h1, h2, h3, h4, h5, h6⟩ := h
    rw [markup, out]
    have e : ({ htmlNs := isHtmlNs (some c%"html") } : TagOpts) = {} := by rw [show isHtmlNs (some c%"html") = true from by decide]
    rw [e, startTag_good U h1 h3]
    dsimp only
    rw [void_empty h2]
    by_cases hv : name ∈ emptyNames
    · rw [if_pos (by simpa using hv), if_pos hv]
    · rw [if_neg (by simpa using hv), if_neg hv, if_neg (by simp), if_pos rfl,
        markupL_out U (some name) (by intro x hx; cases hx; exact ⟨h1.2, h2⟩) kids (name :: anc) h6]
      simp
theorem markupL_out (U : Uni) (ctx : Option Str) (hctx : ∀ x ∈ ctx, (∀ c ∈ x, nameChar c) ∧ x ∉ ownRules) : ∀ (ns : List Node) (anc : List Str), GoodL anc ns →
    markupL U ctx ns = some (outL ns)
  | [], anc, h => by rw [markupL, outL]
  | n :: ns, anc, h => by
    rw [GoodL] at h
    rw [markupL, outL, markup_out U ctx hctx n anc h.1, markupL_out U ctx hctx ns anc h.2.2]
end

/-! ### The loop -/

/-- From `x` and `s` the loop gets to `y` and `s'`. -/
def Goes (C : Cfg) (x : Str) (s : St) (y : Str) (s' : St) : Prop := ∀ n, x.length ≤ n → ∃ m, y.length ≤ m ∧ rangeLoop n x C s = rangeLoop m y C s'

theorem Goes.refl (C : Cfg) (x : Str) (s : St) : Goes C x s x s := fun n hn => ⟨n, hn, rfl⟩

theorem Goes.trans {x y z : Str} {s s' s'' : St} (h : Goes C x s y s') (h' : Goes C y s' z s'') : Goes C x s z s'' := fun n hn => by
  obtain ⟨m, hm, e⟩ := h n hn
  obtain ⟨k, hk, e'⟩ := h' m hm
  exact ⟨k, hk, e.trans e'⟩

theorem textRun_nil (C : Cfg) (s : St) : textRun [] C s = ((), s) := whQ_neg rfl

theorem rangeStep_lt {r : Str} : rangeStep ('<' :: r) C s = rangeMarkup r C s := by
  unfold rangeStep
  have e1 : ('<' :: r).takeWhile (fun c => c ≠ '<') = [] := by simp
  have e2 : ('<' :: r).dropWhile (fun c => c ≠ '<') = '<' :: r := by simp
  rw [e1, e2]
  refine (bind_val (textRun_nil C s)).trans ?_
  rfl

theorem rangeLoop_cons (n : Nat) (c : Char) (r : Str) : rangeLoop (n + 1) (c :: r) C s = rangeLoop n (rangeStep (c :: r) C s).1 C (rangeStep (c :: r) C s).2 := rfl

theorem goes_markup {x y : Str} {s' : St} (h : rangeMarkup x C s = (y, s')) (hl : y.length ≤ x.length) : Goes C ('<' :: x) s y s' := by
  intro n hn
  obtain ⟨m, rfl⟩ : ∃ m, n = m + 1 := ⟨n - 1, by simp at hn; omega⟩
  refine ⟨m, by simp at hn; omega, ?_⟩
  rw [rangeLoop_cons, rangeStep_lt, h]

theorem goes_text {t x : Str} {s' : St} (ht : t ≠ []) (hn : '<' ∉ t) (hx : x = [] ∨ ∃ r, x = '<' :: r) (h : textRun t C s = ((), s')) : Goes C (t ++ x) s x s' := by
  intro n hl
  obtain ⟨m, rfl⟩ : ∃ m, n = m + 1 := ⟨n - 1, by
    have : 0 < t.length := List.length_pos_iff.2 ht
    rw [List.length_append] at hl
    omega⟩
  refine ⟨m + 1, by rw [List.length_append] at hl; omega, ?_⟩
  obtain ⟨c, r, rfl⟩ := List.exists_cons_of_ne_nil ht
  have hall : ∀ a ∈ (c :: r), (decide (a ≠ '<')) = true := fun a ha => decide_eq_true fun e => hn (e ▸ ha)
  rw [List.cons_append, rangeLoop_cons]
  rcases hx with rfl | ⟨y, rfl⟩
  · have e : rangeStep (c :: (r ++ [])) C s = ([], s') := by
      unfold rangeStep
      have e1 : (c :: r).takeWhile (fun c => c ≠ '<') = c :: r := by
        have := List.takeWhile_append_of_pos (l₂ := []) hall
        rwa [List.append_nil, List.takeWhile_nil, List.append_nil] at this
      have e2 : (c :: r).dropWhile (fun c => c ≠ '<') = [] := by
        have := List.dropWhile_append_of_pos (l₂ := []) hall
        rwa [List.append_nil, List.dropWhile_nil] at this
      rw [List.append_nil, e1, e2]
      exact (bind_val h).trans rfl
    rw [e]
    cases m <;> rfl
  · have e : rangeStep (c :: (r ++ '<' :: y)) C s = rangeMarkup y C s' := by
      unfold rangeStep
      have e1 : (c :: (r ++ '<' :: y)).takeWhile (fun c => c ≠ '<') = c :: r := by
        rw [← List.cons_append, List.takeWhile_append_of_pos hall]
        simp
      have e2 : (c :: (r ++ '<' :: y)).dropWhile (fun c => c ≠ '<') = '<' :: y := by
        rw [← List.cons_append, List.dropWhile_append_of_pos hall]
        simp
      rw [e1, e2]
      exact (bind_val h).trans rfl
    rw [e, rangeLoop_cons, rangeStep_lt]

/-! ### Trees in the heap -/

mutual
/-- The node numbered `i` is this tree, and all its numbers are at least `b`. -/
def Rep (s : St) (b i : Nat) : Node → Prop
  | .text t => b ≤ i ∧ i < s.heap.length ∧ (s.n i).kind = .text ∧ (s.n i).data = t
  | .comment d => b ≤ i ∧ i < s.heap.length ∧ (s.n i).kind = .comment ∧ (s.n i).data = d
  | .elem name ns attrs kids tpl content => b ≤ i ∧ i < s.heap.length ∧ (s.n i).kind = .element ∧ (s.n i).name = name ∧ (s.n i).ns = ns ∧ (s.n i).attrs = attrs ∧
      tpl = false ∧ content = [] ∧ RepL s (i + 1) (s.n i).children kids
  | _ => False
/-- The same for siblings. -/
def RepL (s : St) (b : Nat) : List Nat → List Node → Prop
  | [], [] => True
  | i :: l, n :: ns => Rep s b i n ∧ RepL s b l ns
  | _, _ => False
end

mutual
theorem rep_keep {s s' : St} (hl : s.heap.length ≤ s'.heap.length) : ∀ (n : Node) (b b' i : Nat), b' ≤ b → (∀ j, b ≤ j → j < s.heap.length → s'.n j = s.n j) → Rep s b i n → Rep s' b' i n
  | .text t, b, b', i, hb, hs, h => by
    rw [Rep] at h ⊢
    rw [hs i h.1 h.2.1]
    exact ⟨by omega, by omega, h.2.2⟩
  | .comment t, b, b', i, hb, hs, h => by
    rw [Rep] at h ⊢
    rw [hs i h.1 h.2.1]
    exact ⟨by omega, by omega, h.2.2⟩
  | .pi _, b, b', i, hb, hs, h => by simp [Rep] at h
  | .doctype _ _ _, b, b', i, hb, hs, h => by simp [Rep] at h
  | .doc _, b, b', i, hb, hs, h => by simp [Rep] at h
  | .elem name ns attrs kids tpl content, b, b', i, hb, hs, h => by
    rw [Rep] at h ⊢
    obtain ⟨h1, h2, h3, h4, h5, h6, h7, h8, h9⟩ := h
    rw [hs i h1 h2]
    exact ⟨by omega, by omega, h3, h4, h5, h6, h7, h8, repL_keep hl kids (i + 1) (i + 1) _ (Nat.le_refl _) (fun j hj => hs j (by omega)) h9⟩
theorem repL_keep {s s' : St} (hl : s.heap.length ≤ s'.heap.length) : ∀ (ns : List Node) (b b' : Nat) (l : List Nat), b' ≤ b → (∀ j, b ≤ j → j < s.heap.length → s'.n j = s.n j) → RepL s b l ns → RepL s' b' l ns
  | [], b, b', [], hb, hs, h => by rw [RepL]; trivial
  | [], b, b', _ :: _, hb, hs, h => by simp [RepL] at h
  | _ :: _, b, b', [], hb, hs, h => by simp [RepL] at h
  | n :: ns, b, b', i :: l, hb, hs, h => by
    rw [RepL] at h ⊢
    exact ⟨rep_keep hl n b b' i hb hs h.1, repL_keep hl ns b b' l hb hs h.2⟩
end

theorem repL_append {s : St} {b : Nat} : ∀ {l₁ l₂ : List Nat} {n₁ n₂ : List Node}, RepL s b l₁ n₁ → RepL s b l₂ n₂ → RepL s b (l₁ ++ l₂) (n₁ ++ n₂)
  | [], _, [], _, _, h => h
  | [], _, _ :: _, _, h, _ => by simp [RepL] at h
  | _ :: _, _, [], _, h, _ => by simp [RepL] at h
  | i :: l, _, n :: ns, _, h, h' => by
    rw [RepL] at h
    exact ⟨h.1, repL_append h.2 h'⟩

mutual
theorem tree_rep {s : St} : ∀ (n : Node) (b i f : Nat), s.heap.length - i ≤ f → Rep s b i n → treeF s f i = n
  | .text t, b, i, f, hf, h => by
    rw [Rep] at h
    obtain ⟨g, rfl⟩ : ∃ g, f = g + 1 := ⟨f - 1, by omega⟩
    rw [treeF, h.2.2.1, h.2.2.2]
  | .comment t, b, i, f, hf, h => by
    rw [Rep] at h
    obtain ⟨g, rfl⟩ : ∃ g, f = g + 1 := ⟨f - 1, by omega⟩
    rw [treeF, h.2.2.1, h.2.2.2]
  | .pi _, b, i, f, hf, h => by simp [Rep] at h
  | .doctype _ _ _, b, i, f, hf, h => by simp [Rep] at h
  | .doc _, b, i, f, hf, h => by simp [Rep] at h
  | .elem name ns attrs kids tpl content, b, i, f, hf, h => by
    rw [Rep] at h
    obtain ⟨h1, h2, h3, rfl, rfl, rfl, rfl, rfl, h9⟩ := h
    obtain ⟨g, rfl⟩ : ∃ g, f = g + 1 := ⟨f - 1, by omega⟩
    rw [treeF, h3]
    dsimp only
    rw [treeL_rep kids (i + 1) _ g (by omega) h9]
theorem treeL_rep {s : St} : ∀ (ns : List Node) (b : Nat) (l : List Nat) (f : Nat), s.heap.length - b ≤ f → RepL s b l ns → l.map (treeF s f) = ns
  | [], b, [], f, hf, h => rfl
  | [], b, _ :: _, f, hf, h => by simp [RepL] at h
  | _ :: _, b, [], f, hf, h => by simp [RepL] at h
  | n :: ns, b, i :: l, f, hf, h => by
    rw [RepL] at h
    have hb : b ≤ i := by
      have := h.1
      cases n <;> rw [Rep] at this <;> first | exact this.1 | exact this.elim
    rw [List.map_cons, tree_rep n b i f (by omega) h.1, treeL_rep ns b l f hf h.2]
end

/-! ### What reading a forest does to the state -/

/-- Parts of the state that ordinary content never changes. -/
structure Still (s s' : St) : Prop where
  doc : s'.doc = s.doc
  html : s'.html = s.html
  head : s'.head = s.head
  body : s'.body = s.body
  drop : s'.toDrop = s.toDrop
  unwrap : s'.toUnwrap = s.toUnwrap

theorem Still.refl (s : St) : Still s s := ⟨rfl, rfl, rfl, rfl, rfl, rfl⟩

theorem Still.trans {s s' s'' : St} (h : Still s s') (h' : Still s' s'') : Still s s'' :=
  ⟨h'.doc.trans h.doc, h'.html.trans h.html, h'.head.trans h.head, h'.body.trans h.body, h'.drop.trans h.drop, h'.unwrap.trans h.unwrap⟩

/-- The forest has been added to the innermost open element, and nothing else has changed. -/
structure Grew (s s' : St) (ns : List Node) : Prop where
  stack : s'.stack = s.stack
  len : s.heap.length ≤ s'.heap.length
  old : ∀ i, i < s.heap.length → i ≠ s.top → s'.n i = s.n i
  top : ∃ ids, s'.n s.top = { s.n s.top with children := (s.n s.top).children ++ ids } ∧ RepL s' s.heap.length ids ns
  kept : Still s s'

theorem Grew.refl (s : St) : Grew s s [] := ⟨rfl, Nat.le_refl _, fun _ _ _ => rfl, ⟨[], by rw [List.append_nil], trivial⟩, Still.refl s⟩

theorem top_of {s s' : St} (h : s'.stack = s.stack) : s'.top = s.top := by unfold St.top; rw [h]

theorem Grew.trans {s s' s'' : St} {a b : List Node} (ht : s.top < s.heap.length) (h : Grew s s' a) (h' : Grew s' s'' b) : Grew s s'' (a ++ b) := by
  have e := top_of h.stack
  obtain ⟨l1, g1, r1⟩ := h.top
  obtain ⟨l2, g2, r2⟩ := h'.top
  rw [e] at g2
  refine ⟨h'.stack.trans h.stack, Nat.le_trans h.len h'.len, fun i hi hn => ?_, ⟨l1 ++ l2, ?_, ?_⟩, h.kept.trans h'.kept⟩
  · rw [h'.old i (Nat.lt_of_lt_of_le hi h.len) (by rw [e]; exact hn), h.old i hi hn]
  · rw [g2, g1]
    simp
  · refine repL_append (repL_keep h'.len a _ _ l1 (Nat.le_refl _) (fun j hj hj' => h'.old j hj' ?_) r1) (repL_keep (Nat.le_refl _) b _ _ l2 h.len (fun j _ _ => rfl) r2)
    rw [e]
    omega

/-- One node has been added. -/
theorem grew_leaf (h : Flow C anc s) {s' : St} {n : ENode} {nd : Node} (h1 : s'.heap = (s.child n).heap) (h2 : s'.stack = s.stack) (h3 : Still s s')
    (h4 : Rep (s.child n) s.heap.length s.heap.length nd) : Grew s s' [nd] := by
  have hn : ∀ i, s'.n i = (s.child n).n i := fun i => by unfold St.n; rw [h1]
  refine ⟨h2, by rw [h1, len_child]; omega, fun i hi ht => by rw [hn, child_old s n hi ht], ⟨[s.heap.length], by rw [hn, child_top s n h.top_lt], ?_⟩, h3⟩
  refine repL_keep (s := s.child n) (Nat.le_of_eq (by rw [h1])) [nd] _ _ _ (Nat.le_refl _) (fun j _ _ => hn j) ?_
  rw [RepL]
  exact ⟨h4, trivial⟩

/-- The four kinds of steps, for nodes with the properties `pt`, `pc` and `pe`. -/
structure Reader (C : Cfg) (pt pc : Str → Prop) (pe : Str → Attrs → Prop) : Prop where
  text : ∀ {anc : List Str} {s : St} {t : Str}, Flow C anc s → t ≠ [] → PlainText t → pt t → LastOk s →
    ∃ s', textRun (escapeText t) C s = ((), s') ∧ Flow C anc s' ∧ s'.heap = (s.child (textNode t)).heap ∧ s'.stack = s.stack ∧ Still s s'
  comment : ∀ {anc : List Str} {s : St} {d : Str} (rest : Str), Flow C anc s → PlainComment d → pc d →
    ∃ s', rangeMarkup ('!' :: (c%"--" ++ (d ++ (c%"-->" ++ rest)))) C s = (rest, s') ∧ Flow C anc s' ∧ s'.heap = (s.child (commentNode d)).heap ∧ s'.stack = s.stack ∧ Still s s'
  start : ∀ {anc : List Str} {s : St} {name : Str} {as : Attrs} (rest : Str), Flow C anc s → PlainTag name → name ∉ ownRules → GoodAttrs name as → MayNest anc name → pe name as →
    ∃ s', rangeMarkup (name ++ (as.flatMap attrText ++ '>' :: rest)) C s = (rest, s') ∧ s'.heap = (s.child (elementNode name as (some c%"html"))).heap ∧ Still s s' ∧
      if name ∈ emptyNames then Flow C anc s' ∧ s'.stack = s.stack else Flow C (name :: anc) s' ∧ s'.stack = s.stack ++ [s.heap.length]
  stop : ∀ {anc : List Str} {s : St} {name : Str} (rest : Str), Flow C (name :: anc) s → PlainTag name → name ∉ emptyNames → (∃ as, pe name as) →
    ∃ s', rangeMarkup ('/' :: (name ++ '>' :: rest)) C s = (rest, s') ∧ Flow C anc s' ∧ s'.heap = s.heap ∧ s'.stack = s.stack.dropLast ∧ Still s s'

mutual
/-- All nodes of the tree have these properties. -/
def Every (pt pc : Str → Prop) (pe : Str → Attrs → Prop) : Node → Prop
  | .text t => pt t
  | .comment d => pc d
  | .elem name _ attrs kids _ _ => pe name attrs ∧ EveryL pt pc pe kids
  | _ => True
/-- The same for siblings. -/
def EveryL (pt pc : Str → Prop) (pe : Str → Attrs → Prop) : List Node → Prop
  | [] => True
  | n :: ns => Every pt pc pe n ∧ EveryL pt pc pe ns
end

theorem out_lt {n : Node} (h : Good anc n) (ht : isTextNode n = false) : ∃ r, out n = '<' :: r := by
  cases n with
  | text t => cases ht
  | comment d => rw [out]; exact ⟨_, rfl⟩
  | elem name ns attrs kids tpl content => rw [out]; exact ⟨_, rfl⟩
  | _ => simp [Good] at h

theorem escape_no_lt (t : Str) : '<' ∉ escapeText t := (C01_text_no_markup t).1

theorem rep_kind {s : St} {b i : Nat} {n : Node} (h : Rep s b i n) (ht : isTextNode n = false) : (s.n i).kind ≠ .text := by
  cases n with
  | text t => cases ht
  | comment d => rw [Rep] at h; rw [h.2.2.1]; simp
  | elem name ns attrs kids tpl content => rw [Rep] at h; rw [h.2.2.1]; simp
  | _ => simp [Rep] at h

theorem Grew.lastOk {s s' : St} {n : Node} (h : Grew s s' [n]) (ht : isTextNode n = false) : LastOk s' := by
  obtain ⟨ids, h1, h2⟩ := h.top
  intro l hl
  rw [top_of h.stack, h1] at hl
  match ids, h2 with
  | [i], h2 =>
    rw [RepL] at h2
    rw [List.getLast?_concat] at hl
    cases hl
    exact rep_kind h2.1 ht
  | [], h2 => simp [RepL] at h2
  | _ :: _ :: _, h2 => simp [RepL] at h2

section
variable {pt pc : Str → Prop} {pe : Str → Attrs → Prop}

mutual
/-- Reading the markup of a node adds that node. -/
theorem read_node (R : Reader C pt pc pe) : ∀ (n : Node) (anc : List Str) (s : St) (rest : Str), Flow C anc s → Good anc n → Every pt pc pe n →
    (isTextNode n = true → (rest = [] ∨ ∃ r, rest = '<' :: r) ∧ LastOk s) → ∃ s', Goes C (out n ++ rest) s rest s' ∧ Flow C anc s' ∧ Grew s s' [n]
  | .text t, anc, s, rest, hF, hG, hE, ht => by
    rw [Good] at hG
    rw [Every] at hE
    obtain ⟨s', h1, h2, h3, h4, h5⟩ := R.text hF hG.1 hG.2 hE (ht rfl).2
    refine ⟨s', ?_, h2, grew_leaf hF h3 h4 h5 ?_⟩
    · rw [out]
      refine goes_text (fun e => hG.1 (C01_text_injective t [] (by rw [e]; rfl))) (escape_no_lt t) (ht rfl).1 h1
    · rw [Rep, child_new s _ hF.top_lt, len_child]
      exact ⟨Nat.le_refl _, by omega, rfl, rfl⟩
  | .comment d, anc, s, rest, hF, hG, hE, _ => by
    rw [Good] at hG
    rw [Every] at hE
    obtain ⟨s', h1, h2, h3, h4, h5⟩ := R.comment rest hF hG hE
    refine ⟨s', ?_, h2, grew_leaf hF h3 h4 h5 ?_⟩
    · have e : out (.comment d) ++ rest = '<' :: ('!' :: (c%"--" ++ (d ++ (c%"-->" ++ rest)))) := by rw [out]; simp
      rw [e]
      exact goes_markup h1 (by simp; omega)
    · rw [Rep, child_new s _ hF.top_lt, len_child]
      exact ⟨Nat.le_refl _, by omega, rfl, rfl⟩
  | .pi _, anc, s, rest, hF, h, _, _ => by simp [Good] at h
  | .doctype _ _ _, anc, s, rest, hF, h, _, _ => by simp [Good] at h
  | .doc _, anc, s, rest, hF, h, _, _ => by simp [Good] at h
  | .elem name ns attrs kids tpl content, anc, s, rest, hF, hG, hE, _ => by
    rw [Good] at hG
    obtain ⟨rfl, rfl, rfl, h1, h2, h3, h4, h5, h6⟩ := hG
    rw [Every] at hE
    by_cases hv : name ∈ emptyNames
    · obtain ⟨s', g1, g2, g3, g4⟩ := R.start rest hF h1 h2 h3 h4 hE.1
      rw [if_pos hv] at g4
      refine ⟨s', ?_, g4.1, grew_leaf hF g2 g4.2 g3 ?_⟩
      · have e : out (.elem name (some c%"html") attrs kids false []) ++ rest = '<' :: (name ++ (attrs.flatMap attrText ++ '>' :: rest)) := by
          rw [out, if_pos hv]; simp
        rw [e]
        exact goes_markup g1 (by simp; omega)
      · rw [Rep, child_new s _ hF.top_lt, len_child, h5 hv]
        exact ⟨Nat.le_refl _, by omega, rfl, rfl, rfl, rfl, rfl, rfl, trivial⟩
    · obtain ⟨s1, g1, g2, g3, g4⟩ := R.start (outL kids ++ ('<' :: '/' :: (name ++ '>' :: rest))) hF h1 h2 h3 h4 hE.1
      rw [if_neg hv] at g4
      have ht1 : s1.top = s.heap.length := by
        unfold St.top
        rw [g4.2, List.getLastD_eq_getLast?, List.getLast?_concat]
        rfl
      have hn1 : ∀ i, s1.n i = (s.child (elementNode name attrs (some c%"html"))).n i := fun i => by unfold St.n; rw [g2]
      have hl1 : s1.heap.length = s.heap.length + 1 := by rw [g2, len_child]
      have hnew : s1.n s.heap.length = { elementNode name attrs (some c%"html") with parent := some s.top } := by rw [hn1, child_new s _ hF.top_lt]
      obtain ⟨s2, k1, k2, k3⟩ := read_forest R kids (name :: anc) s1 ('<' :: '/' :: (name ++ '>' :: rest)) g4.1 h6 hE.2 (Or.inr ⟨_, rfl⟩) (fun _ => by
        intro l hl
        rw [ht1, hnew] at hl
        cases hl)
      obtain ⟨s3, m1, m2, m3, m4, m5⟩ := R.stop rest k2 h1 hv ⟨attrs, hE.1⟩
      have hn3 : ∀ i, s3.n i = s2.n i := fun i => by unfold St.n; rw [m3]
      have hst : s3.stack = s.stack := by rw [m4, k3.stack, g4.2, List.dropLast_concat]
      have hk := k3.len
      refine ⟨s3, ?_, m2, hst, by rw [m3]; omega, ?_, ⟨[s.heap.length], ?_, ?_⟩, (g3.trans k3.kept).trans m5⟩
      · have e : out (.elem name (some c%"html") attrs kids false []) ++ rest = '<' :: (name ++ (attrs.flatMap attrText ++ '>' :: (outL kids ++ ('<' :: '/' :: (name ++ '>' :: rest))))) := by
          rw [out, if_neg hv]; simp
        rw [e]
        exact ((goes_markup g1 (by simp; omega)).trans k1).trans (goes_markup m1 (by simp; omega))
      · intro i hi hne
        rw [hn3, k3.old i (by omega) (by rw [ht1]; omega), hn1, child_old s _ hi hne]
      · have := hF.top_lt
        rw [hn3, k3.old s.top (by omega) (by rw [ht1]; omega), hn1, child_top s _ hF.top_lt]
      · obtain ⟨ids, e1, e2⟩ := k3.top
        rw [ht1, hnew] at e1
        rw [RepL]
        refine ⟨?_, trivial⟩
        rw [Rep, hn3, e1, m3]
        refine ⟨Nat.le_refl _, by omega, rfl, rfl, rfl, rfl, rfl, rfl, ?_⟩
        rw [hl1] at e2
        exact repL_keep (Nat.le_of_eq (by rw [m3])) kids _ _ _ (Nat.le_refl _) (fun j _ _ => hn3 j) e2
/-- Reading the markup of a forest adds its nodes. -/
theorem read_forest (R : Reader C pt pc pe) : ∀ (ns : List Node) (anc : List Str) (s : St) (rest : Str), Flow C anc s → GoodL anc ns → EveryL pt pc pe ns →
    (rest = [] ∨ ∃ r, rest = '<' :: r) → ((∃ n ∈ ns.head?, isTextNode n = true) → LastOk s) → ∃ s', Goes C (outL ns ++ rest) s rest s' ∧ Flow C anc s' ∧ Grew s s' ns
  | [], anc, s, rest, hF, hG, hE, hr, hl => ⟨s, Goes.refl C rest s, hF, Grew.refl s⟩
  | n :: ns, anc, s, rest, hF, hG, hE, hr, hl => by
    rw [GoodL] at hG
    rw [EveryL] at hE
    obtain ⟨s1, g1, g2, g3⟩ := read_node R n anc s (outL ns ++ rest) hF hG.1 hE.1 (fun ht => ⟨by
      cases ns with
      | nil => exact hr
      | cons m ns =>
        have hm := hG.2.1 ht m rfl
        have hg := hG.2.2
        rw [GoodL] at hg
        obtain ⟨r, e⟩ := out_lt hg.1 hm
        exact Or.inr ⟨r ++ outL ns ++ rest, by rw [outL, e]; simp⟩, hl ⟨n, rfl, ht⟩⟩)
    obtain ⟨s2, k1, k2, k3⟩ := read_forest R ns anc s1 rest g2 hG.2.2 hE.2 hr (by
      rintro ⟨m, hm, hmt⟩
      refine g3.lastOk ?_
      cases hn : isTextNode n with
      | false => rfl
      | true =>
        rw [hG.2.1 hn m hm] at hmt
        cases hmt)
    refine ⟨s2, ?_, k2, ?_⟩
    · rw [outL, List.append_assoc]
      exact g1.trans k1
    · exact g3.trans hF.top_lt k3
end
end

end JH.Eng
