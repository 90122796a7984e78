import Verif.Props.Transforms
import Verif.Props.SanText
/-! C85, C87, C89: transforms that move or remove nodes. -/
namespace JH
open Spec

/-! ### C85: Unwrap -/

mutual
/-- What `Unwrap` computes, below a node. -/
def peelIn (p : Str → Option Str → Attrs → Bool) : Node → Node
  | .elem name ns as kids tpl content => .elem name ns as (peelL p kids) tpl (if tpl then peelL p content else content)
  | .doc kids => .doc (peelL p kids)
  | n => n
/-- What `Unwrap` computes for a list: the children of an unwrapped element are not looked at themselves. -/
def peelL (p : Str → Option Str → Attrs → Bool) : List Node → List Node
  | [] => []
  | .elem name ns as kids tpl content :: rest =>
    (if p name ns as then peelEach p kids ++ (if tpl then peelEach p content else [])
      else [.elem name ns as (peelL p kids) tpl (if tpl then peelL p content else content)]) ++ peelL p rest
  | .doc kids :: rest => .doc (peelL p kids) :: peelL p rest
  | .text d :: rest => .text d :: peelL p rest
  | .comment d :: rest => .comment d :: peelL p rest
  | .pi d :: rest => .pi d :: peelL p rest
  | .doctype a b c :: rest => .doctype a b c :: peelL p rest
/-- Every node of a list, below. -/
def peelEach (p : Str → Option Str → Attrs → Bool) : List Node → List Node
  | [] => []
  | n :: ns => peelIn p n :: peelEach p ns
end

theorem peelEach_map (p : Str → Option Str → Attrs → Bool) (l : List Node) : peelEach p l = l.map (peelIn p) := by
  induction l with
  | nil => simp [peelEach]
  | cons n ns ih => simp [peelEach, ih]

/-- What takes the place of one node. -/
def peel1 (p : Str → Option Str → Attrs → Bool) (n : Node) : List Node := if elemIs p n then (hoisted n).map (peelIn p) else [peelIn p n]

theorem flatMap_peel (p : Str → Option Str → Attrs → Bool) (ks : List Node) : ks.flatMap (peel1 p) = peelL p ks := by
  induction ks with
  | nil => simp [peelL]
  | cons n ns ih =>
    rw [List.flatMap_cons, ih]
    cases n with
    | elem name ns' as kids tpl content =>
      simp only [peel1, elemIs, peelL, hoisted, peelEach_map, peelIn]
      cases tpl <;> simp
    | _ => simp [peel1, elemIs, peelL, peelIn]

theorem descend_peel (p : Str → Option Str → Attrs → Bool) (n : Node) (hn : NamedTree n) : descend (fun _ ks => peelL p ks) n = peelIn p n := by
  cases n with
  | elem name ns as kids tpl content => rw [descend_elem _ _ _ _ _ _ hn.name, peelIn]
  | _ => simp [descend, peelIn]

theorem walk_unwrap (S : SanEnv) (C : SanCfg) (q : NodeSel) (p : Str → Option Str → Attrs → Bool)
    (hp : ∀ path name ns as kids tpl content, q path (.elem name ns as kids tpl content) = p name ns as) (fuel : Nat) (kids : List Node)
    (hok : ∀ y ∈ kids, NamedTree y) (hf : Node.sizeL kids < fuel) :
    walkF S C [opUnwrap q] fuel [] false [] (kids.map fun k => (k, 0)) = peelL p kids := by
  rw [opUnwrap, opReplace, walk_single S C _ (peel1 p) fuel kids ?_ hok hf, flatMap_peel]
  intro path n hn
  simp only [flatMap_peel]
  cases n with
  | elem name ns as kids tpl content =>
    simp only [proper_special hn.name, hp, Bool.false_or]
    cases h : p name ns as
    · refine .inr ⟨_, rfl, hn, Nat.le_refl _, ?_⟩
      simp [peel1, elemIs, h, descend_peel p _ hn]
    · refine .inl ⟨_, _, rfl, hn.hoisted, hoisted_size _, ?_⟩
      simp only [peel1, elemIs, h, if_true, Bool.false_eq_true, if_false]
      apply List.map_congr_left
      intro k hk
      exact (descend_peel p k (hn.hoisted k hk)).symm
  | _ =>
    refine .inr ⟨_, rfl, hn, Nat.le_refl _, ?_⟩
    simp [peel1, elemIs, descend_peel p _ hn]

theorem transform_unwrap (R : TransEnv) (fuel : List Node → Nat) (hf : EnoughFuel fuel) (s : Str) (p : Str → Option Str → Attrs → Bool) (kids : List Node)
    (hp : OwnSel R s p) (hk : ∀ k ∈ kids, Everywhere WellNamed k) : transform R fuel [.one true (.unwrap s)] kids = peelL p kids := by
  rw [transform_walk R fuel _ (opUnwrap (R.sel s)) kids rfl]
  exact walk_unwrap R.S {} (R.sel s) p hp (fuel kids) kids hk (hf kids)

mutual
theorem peelIn_text (p : Str → Option Str → Attrs → Bool) : ∀ n, keptText (fun _ => false) (peelIn p n) = keptText (fun _ => false) n
  | .elem name ns as kids tpl content => by
    have h1 := peelL_text p kids
    cases tpl with
    | false => simp [peelIn, keptText, h1]
    | true => simp [peelIn, keptText, h1, peelL_text p content]
  | .doc kids => by simp [peelIn, keptText, peelL_text p kids]
  | .text _ => rfl
  | .comment _ => rfl
  | .pi _ => rfl
  | .doctype _ _ _ => rfl
theorem peelL_text (p : Str → Option Str → Attrs → Bool) : ∀ l, keptTextL (fun _ => false) (peelL p l) = keptTextL (fun _ => false) l
  | [] => by simp [peelL, keptTextL]
  | .elem name ns as kids tpl content :: rest => by
    have h1 := peelL_text p kids
    have h2 := peelEach_text p kids
    have h3 := peelL_text p rest
    simp only [peelL]
    cases tpl with
    | false =>
      split <;> simp [keptTextL_append, keptTextL, keptText, h1, h2, h3]
    | true =>
      have h4 := peelL_text p content
      have h5 := peelEach_text p content
      split <;> simp [keptTextL_append, keptTextL, keptText, h1, h2, h3, h4, h5]
  | .doc kids :: rest => by simp [peelL, keptTextL, keptText, peelL_text p kids, peelL_text p rest]
  | .text d :: rest => by simp [peelL, keptTextL, keptText, peelL_text p rest]
  | .comment d :: rest => by simp [peelL, keptTextL, keptText, peelL_text p rest]
  | .pi d :: rest => by simp [peelL, keptTextL, keptText, peelL_text p rest]
  | .doctype a b c :: rest => by simp [peelL, keptTextL, keptText, peelL_text p rest]
theorem peelEach_text (p : Str → Option Str → Attrs → Bool) : ∀ l, keptTextL (fun _ => false) (peelEach p l) = keptTextL (fun _ => false) l
  | [] => by simp [peelEach, keptTextL]
  | n :: ns => by simp [peelEach, keptTextL, peelIn_text p n, peelEach_text p ns]
end

/-- C85: `Unwrap` keeps all the text, in order. -/
theorem C85_text (R : TransEnv) (fuel : List Node → Nat) (hf : EnoughFuel fuel) (s : Str) (p : Str → Option Str → Attrs → Bool) (kids : List Node)
    (hp : OwnSel R s p) (hk : ∀ k ∈ kids, Everywhere WellNamed k) :
    keptTextL (fun _ => false) (transform R fuel [.one true (.unwrap s)] kids) = keptTextL (fun _ => false) kids := by
  rw [transform_unwrap R fuel hf s p kids hp hk, peelL_text]

/-- No element that is to be unwrapped is directly inside another one. -/
def Spec.NotNested (p : Str → Option Str → List (Str × Option Str) → Bool) (n : Node) : Prop := elemIs p n = true → ∀ k ∈ contents n, elemIs p k = false

mutual
theorem peelIn_eq (p : Str → Option Str → Attrs → Bool) : ∀ n, Everywhere (NotNested p) n → peelIn p n = unwrappedIn p n
  | .elem name ns as kids tpl content, h => by
    simp only [Everywhere] at h
    have h1 := peelL_eq p kids h.2.1
    cases tpl with
    | false => simp [peelIn, unwrappedIn, h1]
    | true => simp [peelIn, unwrappedIn, h1, peelL_eq p content (h.2.2 rfl)]
  | .doc kids, h => by
    simp only [Everywhere] at h
    simp [peelIn, unwrappedIn, peelL_eq p kids h.2]
  | .text _, _ => rfl
  | .comment _, _ => rfl
  | .pi _, _ => rfl
  | .doctype _ _ _, _ => rfl
theorem peelL_eq (p : Str → Option Str → Attrs → Bool) : ∀ l, EverywhereL (NotNested p) l → peelL p l = unwrapped p l
  | [], _ => by simp [peelL, unwrapped]
  | .elem name ns as kids tpl content :: rest, h => by
    simp only [EverywhereL, Everywhere] at h
    obtain ⟨⟨h0, h1, h2⟩, h3⟩ := h
    have e1 := peelL_eq p kids h1
    have e3 := peelL_eq p rest h3
    simp only [peelL, unwrapped]
    rw [e3]
    congr 1
    by_cases hp : p name ns as = true
    · rw [if_pos hp, if_pos hp]
      have hk := h0 (by simpa [elemIs] using hp)
      cases tpl with
      | false => simp [peelEach_eq p kids h1 (fun k hk' => hk k (by simpa [contents] using hk'))]
      | true =>
        simp [peelEach_eq p kids h1 (fun k hk' => hk k (by simp [contents, hk'])),
          peelEach_eq p content (h2 rfl) (fun k hk' => hk k (by simp [contents, hk']))]
    · rw [if_neg hp, if_neg hp, e1]
      cases tpl with
      | false => simp
      | true => simp [peelL_eq p content (h2 rfl)]
  | .doc kids :: rest, h => by
    simp only [EverywhereL, Everywhere] at h
    simp [peelL, unwrapped, unwrappedIn, peelL_eq p kids h.1.2, peelL_eq p rest h.2]
  | .text d :: rest, h => by simp only [EverywhereL] at h; simp [peelL, unwrapped, unwrappedIn, peelL_eq p rest h.2]
  | .comment d :: rest, h => by simp only [EverywhereL] at h; simp [peelL, unwrapped, unwrappedIn, peelL_eq p rest h.2]
  | .pi d :: rest, h => by simp only [EverywhereL] at h; simp [peelL, unwrapped, unwrappedIn, peelL_eq p rest h.2]
  | .doctype a b c :: rest, h => by simp only [EverywhereL] at h; simp [peelL, unwrapped, unwrappedIn, peelL_eq p rest h.2]
theorem peelEach_eq (p : Str → Option Str → Attrs → Bool) : ∀ l, EverywhereL (NotNested p) l → (∀ k ∈ l, elemIs p k = false) → peelEach p l = unwrapped p l
  | [], _, _ => by simp [peelEach, unwrapped]
  | n :: ns, h, hk => by
    simp only [EverywhereL] at h
    have e1 := peelIn_eq p n h.1
    have e2 := peelEach_eq p ns h.2 fun k hk' => hk k (by simp [hk'])
    have h0 := hk n (by simp)
    rw [peelEach, e1, e2]
    cases n with
    | elem name ns' as kids tpl content =>
      simp only [elemIs] at h0
      simp [unwrapped, unwrappedIn, h0]
    | _ => simp [unwrapped]
end

/-- C85: `Unwrap` replaces exactly the elements it matches by what they contain. Partial: no element it matches may be directly inside another one; the
inner one would be kept, see `C85_nested_fails`. -/
theorem C85_unwrap_partial (R : TransEnv) (fuel : List Node → Nat) (hf : EnoughFuel fuel) (s : Str) (p : Str → Option Str → Attrs → Bool) (kids : List Node)
    (hp : OwnSel R s p) (hk : ∀ k ∈ kids, Everywhere WellNamed k) (hn : ∀ k ∈ kids, Everywhere (NotNested p) k) :
    transform R fuel [.one true (.unwrap s)] kids = unwrapped p kids := by
  rw [transform_unwrap R fuel hf s p kids hp hk, peelL_eq p kids ((everywhereL_iff _ _).2 hn)]

/-- `Unwrap("b")` on `<b>x<b>y</b></b>`. -/
def sampleNested : List Node := [.elem c%"b" (some c%"html") [] [.text c%"x", .elem c%"b" (some c%"html") [] [.text c%"y"] false []] false []]

/-- C85 is false for nested matches: `Unwrap("b")` makes `x<b>y</b>` of `<b>x<b>y</b></b>`. -/
theorem C85_nested_fails : ¬ ∀ (R : TransEnv) (fuel : List Node → Nat) (s : Str) (p : Str → Option Str → Attrs → Bool) (kids : List Node),
    EnoughFuel fuel → OwnSel R s p → (∀ k ∈ kids, Everywhere WellNamed k) → transform R fuel [.one true (.unwrap s)] kids = unwrapped p kids := by
  intro h
  have hk : ∀ k ∈ sampleNested, Everywhere WellNamed k := namedBL_iff _ (by decide)
  have h1 := h TransEnv.sample fuelFor c%"b" _ sampleNested fuelFor_enough (sample_tag _ (by decide)) hk
  rw [transform_unwrap TransEnv.sample fuelFor fuelFor_enough c%"b" _ sampleNested (sample_tag _ (by decide)) hk] at h1
  have h2 := congrArg (fun l => l.any (elemIs fun name _ _ => name = c%"b")) h1
  revert h2
  decide

example : transform TransEnv.sample fuelFor [.one true (.unwrap c%".x")] sampleTree =
    [.elem c%"div" (some c%"html") [] [.text c%"a", .text c%"b", .elem c%"template" (some c%"html") [] [] true [.text c%"c", .elem c%"i" (some c%"html") [] [.text c%"d"] false []]] false []] := by
  rw [transform_unwrap TransEnv.sample fuelFor fuelFor_enough c%".x" _ sampleTree sample_class sampleTree_named]
  rfl

/-! ### C87: Empty, Escape, Decide -/

theorem flatMap_emptied (p : Str → Option Str → Attrs → Bool) (ks : List Node) : ks.flatMap (fun n => [emptiedAll p n]) = emptiedAllL p ks := by
  induction ks with
  | nil => simp [emptiedAllL]
  | cons n ns ih => rw [List.flatMap_cons, ih, emptiedAllL]; rfl

/-- C87: `Empty` removes the children of exactly the elements it matches (and their template content), and nothing else. -/
theorem C87_empty (R : TransEnv) (fuel : List Node → Nat) (hf : EnoughFuel fuel) (s : Str) (p : Str → Option Str → Attrs → Bool) (kids : List Node)
    (hp : OwnSel R s p) (hk : ∀ k ∈ kids, Everywhere WellNamed k) : transform R fuel [.one true (.empty s)] kids = emptiedAllL p kids := by
  rw [transform_walk R fuel _ (opEmpty (R.sel s)) kids rfl, opEmpty, opEdit,
    walk_single R.S {} _ (fun n => [emptiedAll p n]) (fuel kids) kids ?_ hk (hf kids), flatMap_emptied]
  intro path n hn
  refine .inr ⟨_, rfl, ?_⟩
  simp only [flatMap_emptied]
  cases n with
  | elem name ns as kids tpl content =>
    simp only [proper_special hn.name, hp path, Bool.false_or]
    cases h : p name ns as
    · simp only [Bool.not_false, if_true]
      refine ⟨hn, Nat.le_refl _, ?_⟩
      rw [descend_elem _ _ _ _ _ _ hn.name, emptiedAll, h]
      simp
    · simp only [Bool.not_true, Bool.false_eq_true, if_false, emptied]
      refine ⟨NamedTree.mk hn.name (by simp) (fun h => by subst h; simp), ?_, ?_⟩
      · simp only [Node.size, Node.sizeL]
        cases tpl <;> simp [Node.sizeL]
        omega
      · rw [descend_elem _ _ _ _ _ _ hn.name, emptiedAll, h]
        cases tpl <;> simp [emptiedAllL]
  | doc kids => exact ⟨by simpa [isSpecial, nodeName] using hn, by simp [isSpecial, nodeName], by simp [isSpecial, nodeName, descend, emptiedAll]⟩
  | _ => exact ⟨by simpa [isSpecial, nodeName] using hn, by simp [isSpecial, nodeName], by simp [isSpecial, nodeName, descend, emptiedAll]⟩

theorem flatMap_decided (q : Node → DecideAct) (st en : Node → Option Str) (ks : List Node) : ks.flatMap (decided q st en) = decidedL q st en ks := by
  induction ks with
  | nil => simp [decidedL]
  | cons n ns ih => rw [List.flatMap_cons, ih, decidedL]

theorem tagNode_eq (o : Option Str) : textNode? o = tagNode o := by
  rcases o with _ | _ | _ <;> rfl

theorem tagNode_decided (q : Node → DecideAct) (st en : Node → Option Str) (o : Option Str) : (tagNode o).flatMap (decided q st en) = tagNode o := by
  rcases o with _ | _ | _ <;> simp [tagNode, decided]

theorem tagNode_size (o : Option Str) : Node.sizeL (tagNode o) ≤ 1 := by
  rcases o with _ | _ | _ <;> simp [tagNode, Node.sizeL, Node.size]

theorem tagNode_named (o : Option Str) : ∀ y ∈ tagNode o, NamedTree y := by
  rcases o with _ | _ | _ <;> simp [tagNode, NamedTree.text]

theorem flatMap_hoisted (q : Node → DecideAct) (st en : Node → Option Str) (name : Str) (ns : Option Str) (as : Attrs) (kids : List Node) (tpl : Bool)
    (content : List Node) : (hoisted (.elem name ns as kids tpl content)).flatMap (decided q st en) =
      decidedL q st en kids ++ (if tpl then decidedL q st en content else []) := by
  cases tpl <;> simp [hoisted, flatMap_decided]

/-- A walk that decides on elements. -/
theorem walk_decide (S : SanEnv) (C : SanCfg) (g : List Frame → Node → UserAct) (q : Node → DecideAct) (fuel : Nat) (kids : List Node)
    (he : ∀ path name ns as kids tpl content, ProperName name → g path (.elem name ns as kids tpl content) =
      decideAct S (.elem name ns as kids tpl content) (q (.elem name ns as kids tpl content)))
    (hn : ∀ path n, (∀ name ns as kids tpl content, n ≠ .elem name ns as kids tpl content) → g path n = .keep n)
    (hok : ∀ y ∈ kids, NamedTree y) (hf : Node.sizeL kids < fuel) :
    walkF S C [.user g] fuel [] false [] (kids.map fun k => (k, 0)) = decidedL q S.startText S.endText kids := by
  rw [walk_single S C _ (decided q S.startText S.endText) fuel kids ?_ hok hf, flatMap_decided]
  intro path n hnm
  simp only [flatMap_decided]
  cases n with
  | elem name ns as kids tpl content =>
    rw [he path name ns as kids tpl content hnm.name]
    cases h : q (.elem name ns as kids tpl content) with
    | keep =>
      refine .inr ⟨_, rfl, hnm, Nat.le_refl _, ?_⟩
      rw [descend_elem _ _ _ _ _ _ hnm.name, decided, h]
    | empty =>
      refine .inr ⟨_, rfl, NamedTree.mk hnm.name (by simp) (fun h => by subst h; simp), ?_, ?_⟩
      · cases tpl <;> simp [emptied, Node.size, Node.sizeL] <;> omega
      · simp only [emptied]
        rw [descend_elem _ _ _ _ _ _ hnm.name, decided, h]
        cases tpl <;> simp [decidedL]
    | drop => exact .inl ⟨_, _, rfl, by simp, by simp [Node.sizeL, Node.size]; omega, by simp [decided, h, decidedL]⟩
    | unwrap =>
      refine .inl ⟨_, _, rfl, hnm.hoisted, hoisted_size _, ?_⟩
      rw [if_pos rfl, ← flatMap_decided, flatMap_hoisted, decided, h]
    | escape =>
      refine .inl ⟨_, _, rfl, ?_, ?_, ?_⟩
      · intro y hy
        simp only [escaped, tagNode_eq, List.mem_append] at hy
        rcases hy with (hy | hy) | hy
        · exact tagNode_named _ y hy
        · exact hnm.hoisted y hy
        · exact tagNode_named _ y hy
      · have h1 := tagNode_size (S.startText (.elem name ns as kids tpl content))
        have h2 := tagNode_size (S.endText (.elem name ns as kids tpl content))
        have h3 : Node.sizeL (hoisted (.elem name ns as kids tpl content)) ≤ Node.sizeL kids + Node.sizeL content := by
          cases tpl <;> simp [hoisted, sizeL_app]
        simp only [escaped, tagNode_eq, sizeL_app, Node.size]
        omega
      · rw [if_pos rfl, escaped, tagNode_eq, tagNode_eq, ← flatMap_decided, List.flatMap_append, List.flatMap_append, flatMap_hoisted, tagNode_decided, tagNode_decided, decided, h]
  | _ =>
    refine .inr ⟨_, hn path _ (by simp), hnm, Nat.le_refl _, ?_⟩
    simp [descend, decided]

/-- C87: `Escape` replaces exactly the elements it matches by the text of their start tag, what they contain (escaped in turn), and the text of
their end tag. -/
theorem C87_escape (R : TransEnv) (fuel : List Node → Nat) (hf : EnoughFuel fuel) (s : Str) (p : Str → Option Str → Attrs → Bool) (kids : List Node)
    (hp : OwnSel R s p) (hk : ∀ k ∈ kids, Everywhere WellNamed k) :
    transform R fuel [.one true (.escape s)] kids = decidedL (askIf p fun _ => .escape) R.S.startText R.S.endText kids := by
  rw [transform_walk R fuel _ (opEscape R.S (R.sel s)) kids rfl, opEscape, opReplace]
  refine walk_decide R.S {} _ _ (fuel kids) kids ?_ ?_ hk (hf kids)
  · intro path name ns as kids tpl content hn
    simp only [proper_special hn, hp path, Bool.false_or, askIf, elemIs]
    by_cases h : p name ns as = true
    · simp [h, decideAct]
    · rw [Bool.not_eq_true] at h; simp [h, decideAct]
  · intro path n hn
    have : isSpecial n = true := by
      cases n with
      | elem name ns as kids tpl content => exact absurd rfl (hn _ _ _ _ _ _)
      | _ => rfl
    simp [this]

theorem transform_decide (R : TransEnv) (fuel : List Node → Nat) (s : Str) (f : Node → DecideAct) (kids : List Node) :
    transform R fuel [.one true (.decide s f)] kids =
      walkF R.S {} [opDecide R.S (if isStar R.S.E.U s then none else some (R.sel s)) [f]] (fuel kids) [] false [] (kids.map fun k => (k, 0)) := by
  simp only [transform, compileT, List.any_cons, TransSpec.isStage, List.any_nil, Bool.or_self, Bool.false_eq_true, if_false, flattenSpecs, flattenSpec,
    List.append_nil, lowerAll, List.foldl_cons, List.foldl_nil, if_true, lowerT, appendCT, List.reverse_cons, List.reverse_nil, List.nil_append]
  simp only [runCT, runCT.finishWalk, runCT.finishPrune, List.isEmpty_nil, if_true, List.reverse_cons, List.reverse_nil, List.nil_append, runWalk,
    walkPolicy, opsOfCT, List.flatMap_cons, List.flatMap_nil, List.append_nil]

theorem chainAct_one (f : Node → DecideAct) (n : Node) : chainAct [f] n = f n := by
  simp only [chainAct]
  split
  · rename_i h; exact h.symm
  · rfl

/-- C87: `Decide` asks the function about exactly the elements the selector matches, once for each, and does what it says: keep, drop, empty, unwrap
or escape. What is hoisted is decided upon in its turn. -/
theorem C87_decide (R : TransEnv) (fuel : List Node → Nat) (hf : EnoughFuel fuel) (s : Str) (f : Node → DecideAct) (p : Str → Option Str → Attrs → Bool)
    (kids : List Node) (hs : isStar R.S.E.U s = false) (hp : OwnSel R s p) (hk : ∀ k ∈ kids, Everywhere WellNamed k) :
    transform R fuel [.one true (.decide s f)] kids = decidedL (askIf p f) R.S.startText R.S.endText kids := by
  rw [transform_decide, hs, opDecide]
  refine walk_decide R.S {} _ _ (fuel kids) kids ?_ ?_ hk (hf kids)
  · intro path name ns as kids tpl content hn
    simp only [Bool.false_eq_true, if_false, proper_special hn, hp path, Bool.false_or, askIf, elemIs, chainAct_one]
    by_cases h : p name ns as = true
    · simp [h, decideAct]
    · rw [Bool.not_eq_true] at h; simp [h, decideAct]
  · intro path n hn
    have : isSpecial n = true := by
      cases n with
      | elem name ns as kids tpl content => exact absurd rfl (hn _ _ _ _ _ _)
      | _ => rfl
    simp [this]

/-- C87: with the selector `*`, `Decide` asks about every node; if the function keeps everything that is not an element, the same holds. -/
theorem C87_decide_all (R : TransEnv) (fuel : List Node → Nat) (hf : EnoughFuel fuel) (s : Str) (f : Node → DecideAct)
    (kids : List Node) (hs : isStar R.S.E.U s = true) (hk : ∀ k ∈ kids, Everywhere WellNamed k)
    (hkeep : ∀ n, elemIs (fun _ _ _ => true) n = false → f n = .keep) :
    transform R fuel [.one true (.decide s f)] kids = decidedL f R.S.startText R.S.endText kids := by
  rw [transform_decide, hs, opDecide]
  refine walk_decide R.S {} _ _ (fuel kids) kids ?_ ?_ hk (hf kids)
  · intro path name ns as kids tpl content hn
    simp [chainAct_one]
  · intro path n hn
    have : f n = .keep := hkeep n (by
      cases n with
      | elem name ns as kids tpl content => exact absurd rfl (hn _ _ _ _ _ _)
      | _ => rfl)
    simp [chainAct_one, this, decideAct]

/-- The first answer other than "keep". -/
def Spec.firstAnswer (fs : List (Node → DecideAct)) (n : Node) : DecideAct := ((fs.map fun f => f n).find? (· ≠ .keep)).getD .keep

theorem chainAct_first (fs : List (Node → DecideAct)) (n : Node) : chainAct fs n = Spec.firstAnswer fs n := by
  induction fs with
  | nil => rfl
  | cons f fs ih =>
    by_cases h : f n = .keep
    · rw [chainAct, if_pos h, ih]
      simp [Spec.firstAnswer, List.find?_cons, h]
    · rw [chainAct, if_neg h]
      simp [Spec.firstAnswer, List.find?_cons, h]

theorem lower_decides (R : TransEnv) (s : Str) : ∀ (fs gs : List (Node → DecideAct)),
    (fs.map fun f => (true, Trans.decide s f)).foldl (fun acc t => if t.1 then lowerT R t.2 acc else acc) [CT.decide s gs] = [CT.decide s (gs ++ fs)] := by
  intro fs
  induction fs with
  | nil => intro gs; simp
  | cons f fs ih =>
    intro gs
    rw [List.map_cons, List.foldl_cons]
    rw [if_pos rfl, show lowerT R (true, Trans.decide s f).2 [CT.decide s gs] = [CT.decide s (gs ++ [f])] by simp [lowerT, appendCT], ih, List.append_assoc]
    rfl

/-- C87: neighbouring `Decide`s with the same selector are one decision: their functions are asked in order until one answers something other than
"keep". -/
theorem C87_decide_chain (R : TransEnv) (fuel : List Node → Nat) (s : Str) (fs : List (Node → DecideAct)) (h : fs ≠ []) (kids : List Node) :
    transform R fuel (fs.map fun f => .one true (.decide s f)) kids = transform R fuel [.one true (.decide s (firstAnswer fs))] kids := by
  rw [transform_decide]
  cases fs with
  | nil => exact absurd rfl h
  | cons f fs =>
  have hst : ∀ l : List (Node → DecideAct), (l.map fun f => TransSpec.one true (.decide s f)).any TransSpec.isStage = false := by
    intro l; induction l with
    | nil => rfl
    | cons f l ih => rw [List.map_cons, List.any_cons, ih]; rfl
  have hfl : ∀ l : List (Node → DecideAct), flattenSpecs (l.map fun f => TransSpec.one true (.decide s f)) = l.map fun f => (true, Trans.decide s f) := by
    intro l; induction l with
    | nil => rfl
    | cons f l ih => rw [List.map_cons, flattenSpecs, ih]; rfl
  simp only [transform, compileT, hst, Bool.false_eq_true, if_false, hfl, lowerAll]
  rw [List.map_cons, List.foldl_cons]
  rw [if_pos rfl, show lowerT R (true, Trans.decide s f).2 [] = [CT.decide s [f]] by simp [lowerT, appendCT], lower_decides]
  simp only [List.reverse_cons, List.reverse_nil, List.nil_append, runCT, runCT.finishWalk, runCT.finishPrune, List.isEmpty_nil, if_true, runWalk,
    walkPolicy, opsOfCT, List.flatMap_cons, List.flatMap_nil, List.append_nil]
  have : opDecide R.S (if isStar R.S.E.U s then none else some (R.sel s)) ([f] ++ fs) =
      opDecide R.S (if isStar R.S.E.U s then none else some (R.sel s)) [firstAnswer (f :: fs)] := by
    unfold opDecide
    congr 1
    funext path n
    rw [chainAct_first, chainAct_one]
    rfl
  rw [this]

/-- What to do by tag name, for the example. -/
def sampleAsk : Node → DecideAct
  | .elem name _ _ _ _ _ => if name = c%"div" then .unwrap else if name = c%"b" then .escape else if name = c%"i" then .empty else .keep
  | _ => .keep

example : transform TransEnv.sample fuelFor [.one true (.decide c%"*" sampleAsk)] sampleTree =
    [.text c%"a", .text c%"<b>", .text c%"b", .text c%"</b>", .elem c%"template" (some c%"html") [] [] true
      [.text c%"<b>", .text c%"c", .text c%"</b>", .elem c%"i" (some c%"html") [] [] false []]] := by
  rw [C87_decide_all TransEnv.sample fuelFor fuelFor_enough c%"*" sampleAsk sampleTree (by decide +kernel) sampleTree_named
    (fun n h => by cases n <;> first | rfl | simp [elemIs] at h)]
  rfl

example : transform TransEnv.sample fuelFor [.one true (.decide c%"*" sampleAsk), .one true (.decide c%"*" fun n => if elemIs (fun _ _ _ => true) n then .drop else .keep)]
    sampleTree = transform TransEnv.sample fuelFor [.one true (.decide c%"*" (firstAnswer [sampleAsk, fun n => if elemIs (fun _ _ _ => true) n then .drop else .keep]))] sampleTree :=
  C87_decide_chain TransEnv.sample fuelFor c%"*" [sampleAsk, fun n => if elemIs (fun _ _ _ => true) n then .drop else .keep] (by simp) sampleTree

/-! ### C89: comments and doctypes -/

theorem flatMap_sift (g : Node → Bool) (ks : List Node) : ks.flatMap (fun n => if g n then [] else [siftIn g n]) = sift g ks := by
  induction ks with
  | nil => simp [sift]
  | cons n ns ih =>
    rw [List.flatMap_cons, ih, sift]
    split <;> simp

theorem descend_sift (g : Node → Bool) (n : Node) (hn : NamedTree n) : descend (fun _ ks => sift g ks) n = siftIn g n := by
  cases n with
  | elem name ns as kids tpl content => rw [descend_elem _ _ _ _ _ _ hn.name, siftIn]
  | _ => simp [descend, siftIn]

/-- Comments and processing instructions. -/
def Spec.isComment : Node → Bool
  | .comment _ => true
  | .pi _ => true
  | _ => false

/-- Doctypes. -/
def Spec.isDoctype : Node → Bool
  | .doctype _ _ _ => true
  | _ => false

theorem walk_sift (S : SanEnv) (C : SanCfg) (o : Op) (g : Node → Bool) (fuel : Nat) (kids : List Node)
    (h : ∀ path fg n, NamedTree n → applyOp S C path fg 0 o n = if g n then .done [] else .cont n)
    (hok : ∀ y ∈ kids, NamedTree y) (hf : Node.sizeL kids < fuel) :
    walkF S C [o] fuel [] false [] (kids.map fun k => (k, 0)) = sift g kids := by
  rw [walk_single_op S C o (fun n => if g n then [] else [siftIn g n]) fuel kids ?_ hok hf, flatMap_sift]
  intro path fg n hn
  rw [h path fg n hn]
  simp only [flatMap_sift]
  cases hg : g n
  · exact .inr ⟨n, by simp, hn, Nat.le_refl _, by simp [descend_sift g n hn]⟩
  · exact .inl ⟨by simp, by simp⟩

/-- C89: `DropComments` removes exactly the comments and processing instructions. -/
theorem C89_comments (R : TransEnv) (fuel : List Node → Nat) (hf : EnoughFuel fuel) (kids : List Node) (hk : ∀ k ∈ kids, Everywhere WellNamed k) :
    transform R fuel [.one true .dropComments] kids = sift isComment kids := by
  rw [transform_walk R fuel _ .dropComments kids rfl]
  refine walk_sift R.S {} .dropComments isComment (fuel kids) kids ?_ hk (hf kids)
  intro path fg n hn
  cases n with
  | elem name ns as kids tpl content =>
    have h1 : name ≠ c%"#comment" := fun e => hn.name.1 (by rw [e]; rfl)
    have h2 : name ≠ c%"#processing-instruction" := fun e => hn.name.1 (by rw [e]; rfl)
    simp [applyOp, isComment, isCommentName, nodeName, h1, h2]
  | _ => simp [applyOp, isComment, isCommentName, nodeName]

/-- C89: `DropDoctype` removes exactly the doctypes. -/
theorem C89_doctype (R : TransEnv) (fuel : List Node → Nat) (hf : EnoughFuel fuel) (kids : List Node) (hk : ∀ k ∈ kids, Everywhere WellNamed k) :
    transform R fuel [.one true .dropDoctype] kids = sift isDoctype kids := by
  rw [transform_walk R fuel _ .dropDoctype kids rfl]
  refine walk_sift R.S {} .dropDoctype isDoctype (fuel kids) kids ?_ hk (hf kids)
  intro path fg n hn
  cases n with
  | elem name ns as kids tpl content => simp [applyOp, isDoctype, nodeName, hn.name.2]
  | _ => simp [applyOp, isDoctype, nodeName]

/-- SVG, MathML, and every element that is not in the HTML namespace. -/
def Spec.foreignElem (U : Uni) (name : Str) (ns : Option Str) : Bool :=
  !(ns = none || ns = some c%"html") || U.lower name = c%"svg" || U.lower name = c%"math"

theorem walk_foreign (S : SanEnv) (C : SanCfg) : ∀ fuel up left items, (∀ y ∈ items, NamedTree y) →
    Node.sizeL items < fuel → walkF S C [.dropForeign] fuel up false left (items.map fun k => (k, 0)) =
      left.reverse ++ cutOff (fun name ns _ => foreignElem S.E.U name ns) S.unclosed items := by
  intro fuel
  induction fuel with
  | zero => intro _ _ _ _ h; omega
  | succ fuel ih =>
    intro up left items hok hf
    cases items with
    | nil => rw [List.map_nil, walkF.eq_def]; simp [cutOff]
    | cons n rest =>
      rw [List.map_cons, walkF.eq_def]
      have hn : NamedTree n := hok n (by simp)
      have hrest : ∀ y ∈ rest, NamedTree y := fun y hy => hok y (by simp [hy])
      have hpos := size_pos n
      have hc : Node.sizeL (n :: rest) = n.size + Node.sizeL rest := rfl
      simp only [Bool.false_or, List.drop_zero, runOps, applyOp]
      rw [cutOff]
      cases n with
      | elem name ns as kids tpl content =>
        have hfor : isForeign S.E.U (.elem name ns as kids tpl content) = foreignElem S.E.U name ns := by
          simp only [isForeign, foreignElem, isHtmlNs]
          by_cases e1 : S.E.U.lower name = c%"svg" <;> by_cases e2 : S.E.U.lower name = c%"math" <;> simp [e1, e2, hn.name.1, hn.name.2]
        simp only [proper_special hn.name, hfor, Bool.false_or, elemIs]
        by_cases h : foreignElem S.E.U name ns = true
        rotate_left
        · rw [Bool.not_eq_true] at h
          simp only [h]
          simp only [Bool.not_false, if_true, Bool.false_eq_true, if_false]
          rw [ih up _ rest hrest (by omega), descend_elem _ _ _ _ _ _ hn.name]
          simp only [Node.size] at hc
          rw [ih _ [] kids hn.kids (by omega)]
          cases tpl
          · simp [cutIn]
          · rw [if_pos rfl, ih _ [] content hn.content (by omega)]
            simp [cutIn]
        · simp only [h, Bool.not_true, Bool.false_eq_true, if_false, if_true]
          by_cases hu : S.unclosed (.elem name ns as kids tpl content) = true
          · simp [hu]
          · rw [Bool.not_eq_true] at hu
            simp only [hu, Bool.false_eq_true, if_false, List.nil_append]
            exact ih up left rest hrest (by omega)
      | doc kids =>
        have hs : isSpecial (.doc kids) = true := rfl
        simp only [hs, Bool.true_or, if_true, isForeign, elemIs, descend, Bool.false_eq_true, if_false]
        simp only [Node.size] at hc
        rw [ih up _ rest hrest (by omega), ih _ [] kids hn.doc (by omega)]
        simp [cutIn]
      | _ =>
        simp only [isSpecial, nodeName, elemIs, descend, List.head?_cons, decide_true, Bool.true_or, Bool.or_true, if_true, Bool.false_eq_true, if_false]
        rw [ih up _ rest hrest (by omega)]
        simp [cutIn]

/-- C89: `DropForeignNamespaces` removes the SVG, MathML and other foreign elements, with what they contain; and where such an element counts
as one with an unclosed `script` or `style`, all its following siblings as well. Nothing else is changed. -/
theorem C89_foreign (R : TransEnv) (fuel : List Node → Nat) (hf : EnoughFuel fuel) (kids : List Node) (hk : ∀ k ∈ kids, Everywhere WellNamed k) :
    transform R fuel [.one true .dropForeign] kids = cutOff (fun name ns _ => foreignElem R.S.E.U name ns) R.S.unclosed kids := by
  rw [transform_walk R fuel _ .dropForeign kids rfl, walk_foreign R.S {} (fuel kids) [] [] kids hk (hf kids)]
  rfl

mutual
theorem openForeign_of_ended (ended : Node → Bool) : ∀ n, Everywhere (EndKnown ended) n → openForeign ended n = false
  | .elem name ns as kids tpl content, h => by
    rw [openForeign, openForeignL_of_ended ended kids h.2.1, Bool.or_false]
    by_cases hn : name = c%"script" ∨ name = c%"style"
    · rcases h.1 _ _ _ _ _ _ rfl hn with e | e | e
      · simp [e]
      · simp [e]
      · rw [e]; simp
    · have : (decide (name = c%"script") || decide (name = c%"style")) = false := by
        simpa using hn
      rw [this]; simp
  | .doc kids, h => by rw [openForeign]; exact openForeignL_of_ended ended kids h.2
  | .text _, _ => rfl
  | .comment _, _ => rfl
  | .pi _, _ => rfl
  | .doctype _ _ _, _ => rfl
theorem openForeignL_of_ended (ended : Node → Bool) : ∀ l, EverywhereL (EndKnown ended) l → openForeignL ended l = false
  | [], _ => rfl
  | n :: r, h => by rw [openForeignL, openForeign_of_ended ended n h.1, openForeignL_of_ended ended r h.2]; rfl
end

mutual
theorem cutIn_closed (p : Str → Option Str → List (Str × Option Str) → Bool) (ended : Node → Bool) : ∀ n, Everywhere (EndKnown ended) n →
    cutIn p (openForeign ended) n = withoutIn p n
  | .elem name ns as kids tpl content, h => by
    rw [cutIn, withoutIn, cutOff_closed p ended kids h.2.1]
    cases tpl with
    | false => rfl
    | true => rw [if_pos rfl, if_pos rfl, cutOff_closed p ended content (h.2.2 rfl)]
  | .doc kids, h => by rw [cutIn, withoutIn, cutOff_closed p ended kids h.2]
  | .text _, _ => rfl
  | .comment _, _ => rfl
  | .pi _, _ => rfl
  | .doctype _ _ _, _ => rfl
theorem cutOff_closed (p : Str → Option Str → List (Str × Option Str) → Bool) (ended : Node → Bool) : ∀ l, EverywhereL (EndKnown ended) l →
    cutOff p (openForeign ended) l = without p l
  | [], _ => rfl
  | n :: r, h => by
    rw [cutOff, without, openForeign_of_ended ended n h.1, cutOff_closed p ended r h.2, cutIn_closed p ended n h.1]
    rfl
end

/-- C89: `DropForeignNamespaces` removes exactly the SVG, MathML and other foreign elements, with what they contain, if the tree contains no
`script` or `style` in a foreign namespace for which the parser did not record the end tag. -/
theorem C89_foreign_partial (R : TransEnv) (ended : Node → Bool) (hu : R.S.unclosed = openForeign ended) (fuel : List Node → Nat)
    (hf : EnoughFuel fuel) (kids : List Node) (hk : ∀ k ∈ kids, Everywhere WellNamed k) (he : EverywhereL (EndKnown ended) kids) :
    transform R fuel [.one true .dropForeign] kids = without (fun name ns _ => foreignElem R.S.E.U name ns) kids := by
  rw [C89_foreign R fuel hf kids hk, hu, cutOff_closed _ ended kids he]

end JH
