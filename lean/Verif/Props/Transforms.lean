import Verif.Lemmas.Walk
import Verif.Props.SanDrop
import Verif.Props.SanRel
import Verif.Props.SanKeep
import Verif.Props.AttrIdem
import Verif.Props.Glob
/-! C84-: the transforms, one at a time. -/
namespace JH
open Spec

/-- The selector `s` looks at nothing but an element's own name, namespace and attributes: compounds of tags, ids, classes and attributes. -/
def OwnSel (R : TransEnv) (s : Str) (p : Str → Option Str → Attrs → Bool) : Prop :=
  ∀ path name ns as kids tpl content, R.sel s path (.elem name ns as kids tpl content) = p name ns as

/-- Enough steps for a list of nodes. -/
def EnoughFuel (fuel : List Node → Nat) : Prop := ∀ kids, Node.sizeL kids < fuel kids

theorem proper_special {name : Str} (h : ProperName name) (ns : Option Str) (as : Attrs) (kids : List Node) (tpl : Bool) (content : List Node) :
    isSpecial (.elem name ns as kids tpl content) = false := (special_iff name ns as kids tpl content).2 h

/-- One compiled transform that is applied in a walk of its own. -/
theorem transform_walk (R : TransEnv) (fuel : List Node → Nat) (t : Trans) (o : Op) (kids : List Node)
    (h : lowerT R t [] = [.walk o]) :
    transform R fuel [.one true t] kids = walkF R.S {} [o] (fuel kids) [] false [] (kids.map fun k => (k, 0)) := by
  simp only [transform, compileT, List.any_cons, TransSpec.isStage, List.any_nil, Bool.or_self, Bool.false_eq_true, if_false, flattenSpecs, flattenSpec,
    List.append_nil, lowerAll, List.foldl_cons, List.foldl_nil, if_true, h, List.reverse_cons, List.reverse_nil, List.nil_append]
  simp only [runCT, runCT.finishWalk, runCT.finishPrune, List.isEmpty_nil, if_true, List.reverse_cons, List.reverse_nil, List.nil_append, runWalk,
    walkPolicy, opsOfCT, List.flatMap_cons, List.flatMap_nil, List.append_nil]

/-- For examples: selectors that are a tag name or `.class`. -/
def TransEnv.sample : TransEnv where
  S := SanEnv.sample
  L := LinkEnv.sample
  sel := fun s _ n =>
    match n with
    | .elem name _ as _ _ _ => if s.head? = some '.' then as.any (fun a => a.1 = c%"class" && a.2 = some s.tail) else name = s
    | _ => false

/-- For examples: enough steps. -/
def fuelFor (kids : List Node) : Nat := Node.sizeL kids + 1

theorem fuelFor_enough : EnoughFuel fuelFor := fun _ => Nat.lt_succ_self _

/-- A `.class` selector looks at the attributes only. -/
theorem sample_class : OwnSel TransEnv.sample c%".x" fun _ _ as => as.any fun a => a.1 = c%"class" && a.2 = some c%"x" := by
  intro path name ns as kids tpl content
  rfl

/-- A tag selector looks at the name only. -/
theorem sample_tag (s : Str) (h : s.head? ≠ some '.') : OwnSel TransEnv.sample s fun name _ _ => name = s := by
  intro path name ns as kids tpl content
  simp [TransEnv.sample, h]

theorem flatMap_without (p : Str → Option Str → Attrs → Bool) (ks : List Node) :
    ks.flatMap (fun n => if elemIs p n then [] else [withoutIn p n]) = without p ks := by
  induction ks with
  | nil => simp [without]
  | cons n ns ih =>
    rw [List.flatMap_cons, ih, without]
    split <;> simp

theorem descend_without (p : Str → Option Str → Attrs → Bool) (n : Node) (hn : NamedTree n) :
    descend (fun _ ks => without p ks) n = withoutIn p n := by
  cases n with
  | elem name ns as kids tpl content => rw [descend_elem _ _ _ _ _ _ hn.name, withoutIn]
  | _ => simp [descend, withoutIn]

/-- `Drop` with a selector that is not a list of tags. -/
theorem walk_drop (S : SanEnv) (C : SanCfg) (q : NodeSel) (p : Str → Option Str → Attrs → Bool)
    (hp : ∀ path name ns as kids tpl content, q path (.elem name ns as kids tpl content) = p name ns as) (fuel : Nat) (kids : List Node)
    (hok : ∀ y ∈ kids, NamedTree y) (hf : Node.sizeL kids < fuel) :
    walkF S C [opDrop q] fuel [] false [] (kids.map fun k => (k, 0)) = without p kids := by
  rw [opDrop, opReplace, walk_single S C _ (fun n => if elemIs p n then [] else [withoutIn p n]) fuel kids ?_ hok hf, flatMap_without]
  intro path n hn
  have hg : (fun (_ : Bool) ks => List.flatMap (fun n => if elemIs p n = true then [] else [withoutIn p n]) ks) = fun _ ks => without p ks := by
    funext _ ks; exact flatMap_without p ks
  simp only [hg]
  cases n with
  | elem name ns as kids tpl content =>
    simp only [proper_special hn.name, hp, Bool.false_or]
    cases h : p name ns as
    · exact .inr ⟨_, rfl, hn, Nat.le_refl _, by simp [elemIs, h, descend_without p _ hn]⟩
    · exact .inl ⟨_, _, rfl, by simp, by simp [Node.sizeL, Node.size]; omega, by simp [elemIs, h]⟩
  | _ => exact .inr ⟨_, rfl, hn, Nat.le_refl _, by simp [elemIs, descend_without p _ hn]⟩

mutual
theorem bulkDrop_eq (U : Uni) (tags : List Str) : ∀ n : Node, NamedTree n → bulkDrop U tags n = withoutIn (fun name _ _ => tags.contains (U.lower name)) n
  | .elem name ns as kids tpl content, h => by
    have h1 := bulkDropL_eq U tags kids h.kids
    simp only [bulkDrop, withoutIn, h1]
    cases tpl with
    | false => simp
    | true => simp [bulkDropL_eq U tags content h.content]
  | .doc kids, h => by simp only [bulkDrop, withoutIn, bulkDropL_eq U tags kids h.doc]
  | .text _, _ => rfl
  | .comment _, _ => rfl
  | .pi _, _ => rfl
  | .doctype _ _ _, _ => rfl
theorem bulkDropL_eq (U : Uni) (tags : List Str) : ∀ l : List Node, (∀ n ∈ l, NamedTree n) →
    bulkDropL U tags l = without (fun name _ _ => tags.contains (U.lower name)) l
  | [], _ => by simp [bulkDropL, without]
  | n :: ns, h => by
    have h1 := bulkDrop_eq U tags n (h n (by simp))
    have h2 := bulkDropL_eq U tags ns fun m hm => h m (by simp [hm])
    have h3 : (!isSpecial n && tags.contains (U.lower (nodeName n))) = elemIs (fun name _ _ => tags.contains (U.lower name)) n := by
      cases n with
      | elem name ns as kids tpl content => simp [proper_special (h _ List.mem_cons_self).name, elemIs, nodeName]
      | _ => simp [elemIs, isSpecial, nodeName]
    rw [bulkDropL, without, h1, h2, h3]
end

/-- C84: `Drop` with a list of tag names removes exactly the elements with one of these names, and everything inside them. -/
theorem C84_drop_tags (R : TransEnv) (fuel : List Node → Nat) (s : Str) (tags : List Str) (kids : List Node)
    (hs : dropTagList R.S.E.U s = some tags) (hk : ∀ k ∈ kids, Everywhere WellNamed k) :
    transform R fuel [.one true (.drop s)] kids = without (fun name _ _ => tags.contains (R.S.E.U.lower name)) kids := by
  rw [← bulkDropL_eq _ _ _ hk]
  simp only [transform, compileT, List.any_cons, TransSpec.isStage, List.any_nil, Bool.or_self, Bool.false_eq_true, if_false, flattenSpecs, flattenSpec,
    List.append_nil, lowerAll, List.foldl_cons, List.foldl_nil, if_true, lowerT, hs, List.reverse_cons, List.reverse_nil, List.nil_append]
  simp only [runCT, runCT.finishWalk, runCT.finishPrune, List.isEmpty_nil, if_true, List.reverse_cons, List.reverse_nil, List.nil_append, runWalk]

/-- C84: `Drop` with any other selector that looks at the element itself removes exactly the elements it matches. -/
theorem C84_drop (R : TransEnv) (fuel : List Node → Nat) (hf : EnoughFuel fuel) (s : Str) (p : Str → Option Str → Attrs → Bool) (kids : List Node)
    (hs : dropTagList R.S.E.U s = none) (hp : OwnSel R s p) (hk : ∀ k ∈ kids, Everywhere WellNamed k) :
    transform R fuel [.one true (.drop s)] kids = without p kids := by
  rw [transform_walk R fuel _ (opDrop (R.sel s)) kids (by simp [lowerT, hs])]
  exact walk_drop R.S {} (R.sel s) p hp (fuel kids) kids hk (hf kids)

/-- `", ".join(names)`. -/
def Spec.commaList : List Str → Str
  | [] => []
  | [n] => n
  | n :: ns => n ++ ',' :: ' ' :: commaList ns

/-- A tag name of ASCII letters, digits and hyphens. -/
def Spec.TagName (n : Str) : Prop := n ≠ [] ∧ ∀ c ∈ n, isAsciiAlpha c = true ∨ isDigitC c = true ∨ c = '-'

theorem splitC_whole (n : Char) (s : Str) (h : n ∉ s) : splitC n s = [s] := by
  induction s with
  | nil => rfl
  | cons c s ih =>
    rw [splitC, ih fun hm => h (by simp [hm])]
    dsimp only
    rw [if_neg fun e => h (by simp [e])]

theorem splitC_comma (s r : Str) (h : ',' ∉ s) : splitC ',' (s ++ ',' :: r) = s :: splitC ',' r := by
  induction s with
  | nil =>
    rw [List.nil_append, splitC]
    cases e : splitC ',' r with
    | nil => exact absurd e (splitC_ne_nil _ _)
    | cons w ws => simp
  | cons c s ih =>
    rw [List.cons_append, splitC, ih fun hm => h (by simp [hm])]
    dsimp only
    rw [if_neg fun e => h (by simp [e])]

theorem tagChar {c : Char} (h : isAsciiAlpha c = true ∨ isDigitC c = true ∨ c = '-') : isAscii c = true ∧ c ≠ ',' ∧
    (c = ' ' || (9 ≤ c.toNat && c.toNat ≤ 13) || (28 ≤ c.toNat && c.toNat ≤ 31)) = false ∧ c%" .#[:>*+~\t\n\r\x0c".contains (lowerC c) = false := by
  have hc : c.toNat < 128 := by
    rcases h with h | h | h
    · simp [isAsciiAlpha, isLowerC, isUpperC] at h; omega
    · simp [isDigitC] at h; omega
    · subst h; decide
  have hall : ∀ n : Fin 128, (isAsciiAlpha (Char.ofNat n.val) = true ∨ isDigitC (Char.ofNat n.val) = true ∨ Char.ofNat n.val = '-') →
      isAscii (Char.ofNat n.val) = true ∧ Char.ofNat n.val ≠ ',' ∧
      (Char.ofNat n.val = ' ' || (9 ≤ (Char.ofNat n.val).toNat && (Char.ofNat n.val).toNat ≤ 13) || (28 ≤ (Char.ofNat n.val).toNat && (Char.ofNat n.val).toNat ≤ 31)) = false ∧
      c%" .#[:>*+~\t\n\r\x0c".contains (lowerC (Char.ofNat n.val)) = false := by decide +kernel
  have := hall ⟨c.toNat, hc⟩
  rw [Char.ofNat_toNat] at this
  exact this h

theorem dropWhile_none (p : Char → Bool) (s : Str) (h : ∀ c ∈ s, p c = false) : s.dropWhile p = s := by
  cases s with
  | nil => rfl
  | cons c s => rw [List.dropWhile_cons, if_neg (by simp [h c (by simp)])]

theorem dropTagList_names (U : Uni) (names : List Str) (hne : names ≠ []) (h : ∀ n ∈ names, TagName n) :
    dropTagList U (commaList names) = some (names.map lowerA) := by
  have sp : ∀ n, TagName n → ∀ c ∈ n, U.isSpace c = false := by
    intro n hn c hc
    obtain ⟨h1, _, h3, _⟩ := tagChar (hn.2 c hc)
    rw [U.isSpace_ascii c h1, h3]
  have strip : ∀ n, TagName n → stripP U.isSpace n = n := by
    intro n hn
    rw [stripP, lstripP, dropWhile_none _ _ (sp n hn), rstripP, dropWhile_none _ _ (fun c hc => sp n hn c (by simpa using hc)), List.reverse_reverse]
  have space : U.isSpace ' ' = true := by rw [U.isSpace_ascii ' ' (by decide)]; decide
  have stripl : ∀ n, TagName n → stripP U.isSpace (' ' :: n) = n := by
    intro n hn
    have := strip n hn
    rw [stripP, lstripP] at this ⊢
    rw [List.dropWhile_cons, if_pos space]
    exact this
  have low : ∀ n, TagName n → U.lower n = lowerA n := by
    intro n hn
    refine U.lower_ascii n ?_
    rw [List.all_eq_true]
    exact fun c hc => (tagChar (hn.2 c hc)).1
  have com : ∀ n, TagName n → ',' ∉ n := fun n hn hc => (tagChar (hn.2 _ hc)).2.1 rfl
  have key : ∀ (names : List Str), names ≠ [] → (∀ n ∈ names, TagName n) →
      (splitC ',' (commaList names)).map (fun p => U.lower (stripP U.isSpace p)) = names.map lowerA ∧
      (splitC ',' (' ' :: commaList names)).map (fun p => U.lower (stripP U.isSpace p)) = names.map lowerA := by
    intro names
    induction names with
    | nil => intro h _; exact absurd rfl h
    | cons n ns ih =>
      intro _ h
      have hn := h n (by simp)
      cases ns with
      | nil =>
        simp only [commaList]
        rw [splitC_whole _ _ (com n hn), splitC_whole ',' (' ' :: n) (by simpa using com n hn)]
        simp only [List.map_cons, List.map_nil, strip n hn, stripl n hn, low n hn, and_self]
      | cons m ns =>
        have i := (ih (by simp) fun x hx => h x (by simp [hx])).2
        simp only [commaList]
        rw [splitC_comma n _ (com n hn), ← List.cons_append, splitC_comma (' ' :: n) _ (by simpa using com n hn)]
        simp only [List.map_cons, strip n hn, stripl n hn, low n hn]
        rw [i]
        exact ⟨rfl, rfl⟩
  rw [dropTagList, (key names hne h).1, if_neg]
  intro hc
  simp only [List.any_map, List.any_eq_true, Function.comp] at hc
  obtain ⟨n, hn, hc⟩ := hc
  have hn := h n hn
  simp only [Bool.or_eq_true, List.isEmpty_iff, List.any_eq_true] at hc
  rcases hc with hc | ⟨d, hd, hc⟩
  · exact hn.1 (by simpa [lowerA] using hc)
  · rw [lowerA, List.mem_map] at hd
    obtain ⟨c, hcn, rfl⟩ := hd
    have := (tagChar (hn.2 c hcn)).2.2.2
    rw [this] at hc
    exact absurd hc (by simp)

/-- C84: `Drop("script, style, …")` removes exactly the elements whose name, without regard to case, is one of these names. -/
theorem C84_drop_names (R : TransEnv) (fuel : List Node → Nat) (names : List Str) (kids : List Node) (hne : names ≠ []) (h : ∀ n ∈ names, TagName n)
    (hk : ∀ k ∈ kids, Everywhere WellNamed k) :
    transform R fuel [.one true (.drop (commaList names))] kids = without (fun name _ _ => names.any fun n => lowerA n = R.S.E.U.lower name) kids := by
  rw [C84_drop_tags R fuel _ _ kids (dropTagList_names R.S.E.U names hne h) hk]
  congr 1
  funext name _ _
  rw [Bool.eq_iff_iff]
  simp

example : commaList [c%"I", c%"b"] = c%"I, b" ∧ ∀ n ∈ [c%"I", c%"b"], TagName n := by
  refine ⟨rfl, ?_⟩
  intro n hn
  simp only [List.mem_cons, List.not_mem_nil, or_false] at hn
  rcases hn with rfl | rfl
  · exact ⟨by decide, fun c hc => by simp at hc; subst hc; decide⟩
  · exact ⟨by decide, fun c hc => by simp at hc; subst hc; decide⟩

theorem splitC_keeps (sep c : Char) (hc : c ≠ sep) : ∀ s : Str, c ∈ s → ∃ p ∈ splitC sep s, c ∈ p ∧ ∀ x ∈ p, x ∈ s := by
  have sub : ∀ s : Str, ∀ p ∈ splitC sep s, ∀ x ∈ p, x ∈ s := by
    intro s
    induction s with
    | nil => intro p hp x hx; simp [splitC] at hp; subst hp; exact hx
    | cons d s ih =>
      intro p hp x hx
      rw [splitC] at hp
      split at hp
      · simp at hp; subst hp; simp at hx; simp [hx]
      · rename_i w ws e
        split at hp
        · simp only [List.mem_cons] at hp
          rcases hp with rfl | hp
          · simp at hx
          · exact List.mem_cons_of_mem _ (ih p (by rw [e]; simpa using hp) x hx)
        · simp only [List.mem_cons] at hp
          rcases hp with rfl | hp
          · rcases List.mem_cons.mp hx with rfl | hx
            · simp
            · exact List.mem_cons_of_mem _ (ih w (by simp [e]) x hx)
          · exact List.mem_cons_of_mem _ (ih p (by simp [e, hp]) x hx)
  intro s hs
  have : ∃ p ∈ splitC sep s, c ∈ p := by
    induction s with
    | nil => simp at hs
    | cons d s ih =>
      rw [splitC]
      split
      · rename_i e; exact absurd e (splitC_ne_nil _ _)
      · rename_i w ws e
        rcases List.mem_cons.mp hs with rfl | hs
        · rw [if_neg hc]; exact ⟨c :: w, by simp, by simp⟩
        · obtain ⟨p, hp, h⟩ := ih hs
          rw [e] at hp
          split
          · exact ⟨p, List.mem_cons_of_mem _ hp, h⟩
          · rcases List.mem_cons.mp hp with rfl | hp
            · exact ⟨d :: p, by simp, by simp [h]⟩
            · exact ⟨p, by simp [hp], h⟩
  obtain ⟨p, hp, h⟩ := this
  exact ⟨p, hp, h, sub s p hp⟩

theorem mem_dropWhile (q : Char → Bool) (s : Str) (c : Char) (h : c ∈ s) (hq : q c = false) : c ∈ s.dropWhile q := by
  induction s with
  | nil => simp at h
  | cons d s ih =>
    rw [List.dropWhile_cons]
    split
    · rename_i hd
      rcases List.mem_cons.mp h with rfl | h
      · rw [hq] at hd; exact absurd hd (by simp)
      · exact ih h
    · exact h

/-- The characters a list of tag names cannot contain (besides blanks inside a name). -/
def Spec.SelChar (c : Char) : Prop := c ∈ c%".#[:>*+~"

instance (c : Char) : Decidable (SelChar c) := inferInstanceAs (Decidable (c ∈ c%".#[:>*+~"))

theorem dropTagList_other (U : Uni) (s : Str) (hi : '\u0130' ∉ s) (h : ∃ c ∈ s, SelChar c) : dropTagList U s = none := by
  obtain ⟨c, hc, h⟩ := h
  have hall : ∀ c ∈ c%".#[:>*+~", isAscii c = true ∧ c ≠ ',' ∧ (c = ' ' || (9 ≤ c.toNat && c.toNat ≤ 13) || (28 ≤ c.toNat && c.toNat ≤ 31)) = false ∧
      lowerC c = c ∧ c%" .#[:>*+~\t\n\r\x0c".contains c = true := by decide +kernel
  obtain ⟨h1, h2, h3, h4, h5⟩ := hall c h
  obtain ⟨p, hp, hcp, hsub⟩ := splitC_keeps ',' c h2 s hc
  rw [dropTagList, if_pos]
  simp only [List.any_map, List.any_eq_true, Function.comp]
  refine ⟨p, hp, ?_⟩
  simp only [Bool.or_eq_true, List.any_eq_true]
  refine Or.inr ⟨c, ?_, h5⟩
  have sp : U.isSpace c = false := by rw [U.isSpace_ascii c h1, h3]
  have hst : c ∈ stripP U.isSpace p := by
    rw [stripP, rstripP, List.mem_reverse]
    refine mem_dropWhile _ _ _ ?_ sp
    rw [List.mem_reverse]
    exact mem_dropWhile _ _ _ hcp sp
  have hsub' : ∀ x ∈ stripP U.isSpace p, x ∈ p := by
    intro x hx
    rw [stripP, rstripP, List.mem_reverse] at hx
    have := (List.dropWhile_suffix _).subset hx
    rw [List.mem_reverse] at this
    exact (List.dropWhile_suffix _).subset this
  have hf := U.lower_pos (stripP U.isSpace p) fun hx => hi (hsub _ (hsub' _ hx))
  have key : ∀ (a b : Str), List.Forall₂ (fun c d => isAscii c = true → d = lowerC c) a b → c ∈ a → c ∈ b := by
    intro a b hab
    induction hab with
    | nil => intro h; exact h
    | cons h _ ih =>
      intro hc
      rcases List.mem_cons.mp hc with rfl | hc
      · rw [h h1, h4]; simp
      · exact List.mem_cons_of_mem _ (ih hc)
  exact key _ _ hf hst

/-- C84: `Drop` with a selector that uses classes, ids, attributes, pseudo-classes or `*` removes exactly the elements it matches. -/
theorem C84_drop_other (R : TransEnv) (fuel : List Node → Nat) (hf : EnoughFuel fuel) (s : Str) (p : Str → Option Str → Attrs → Bool) (kids : List Node)
    (hi : '\u0130' ∉ s) (hs : ∃ c ∈ s, SelChar c) (hp : OwnSel R s p) (hk : ∀ k ∈ kids, Everywhere WellNamed k) :
    transform R fuel [.one true (.drop s)] kids = without p kids :=
  C84_drop R fuel hf s p kids (dropTagList_other R.S.E.U s hi hs) hp hk

/-- Not lists of names: combinators, classes, attributes, pseudo-classes, `*` and empty pieces. -/
example : [c%"a b", c%"a>b", c%"a.b", c%"#a", c%"a[b]", c%"a:not(b)", c%"*", c%"a,", c%"a\tb", c%"a+b", c%"a~b"].all (fun s => (dropTagList Uni.sample s).isNone) = true := by
  decide +kernel

/-- For examples: `<div>a<b class="x">b</b><template><b class="x">c</b><i>d</i></template></div>`. -/
def sampleTree : List Node :=
  [.elem c%"div" (some c%"html") [] [.text c%"a", .elem c%"b" (some c%"html") [(c%"class", some c%"x")] [.text c%"b"] false [],
    .elem c%"template" (some c%"html") [] [] true [.elem c%"b" (some c%"html") [(c%"class", some c%"x")] [.text c%"c"] false [],
      .elem c%"i" (some c%"html") [] [.text c%"d"] false []]] false []]

theorem sampleTree_named : ∀ k ∈ sampleTree, Everywhere WellNamed k := namedBL_iff _ (by decide)

example : transform TransEnv.sample fuelFor [.one true (.drop c%".x")] sampleTree =
    [.elem c%"div" (some c%"html") [] [.text c%"a", .elem c%"template" (some c%"html") [] [] true [.elem c%"i" (some c%"html") [] [.text c%"d"] false []]] false []] := by
  rw [C84_drop_other TransEnv.sample fuelFor fuelFor_enough c%".x" _ sampleTree (by decide) ⟨'.', by decide, by decide⟩ sample_class sampleTree_named]
  rfl

example : transform TransEnv.sample fuelFor [.one true (.drop c%"i, b")] sampleTree =
    [.elem c%"div" (some c%"html") [] [.text c%"a", .elem c%"template" (some c%"html") [] [] true []] false []] := by
  rw [C84_drop_tags TransEnv.sample fuelFor c%"i, b" [c%"i", c%"b"] sampleTree (by decide +kernel) sampleTree_named]
  rfl

/-! ### Attributes -/

theorem flatMap_mapAttrs (g : Str → Option Str → Attrs → Attrs) (ks : List Node) : ks.flatMap (fun n => [mapAttrs g n]) = mapAttrsL g ks := by
  induction ks with
  | nil => simp [mapAttrsL]
  | cons n ns ih => rw [List.flatMap_cons, ih, mapAttrsL]; rfl

theorem walk_attrs (S : SanEnv) (C : SanCfg) (q : NodeSel) (p : Str → Option Str → Attrs → Bool) (g : Str → Attrs → Attrs)
    (hp : ∀ path name ns as kids tpl content, q path (.elem name ns as kids tpl content) = p name ns as) (fuel : Nat) (kids : List Node)
    (hok : ∀ y ∈ kids, NamedTree y) (hf : Node.sizeL kids < fuel) :
    walkF S C [opEdit q (setAttrs g)] fuel [] false [] (kids.map fun k => (k, 0)) =
      mapAttrsL (fun name ns as => if p name ns as then g name as else as) kids := by
  rw [opEdit, walk_single S C _ (fun n => [mapAttrs (fun name ns as => if p name ns as then g name as else as) n]) fuel kids ?_ hok hf, flatMap_mapAttrs]
  intro path n hn
  refine .inr ⟨_, rfl, ?_⟩
  simp only [flatMap_mapAttrs]
  cases n with
  | elem name ns as kids tpl content =>
    simp only [proper_special hn.name, hp, Bool.false_or]
    have key : ∀ as', NamedTree (.elem name ns as' kids tpl content) := fun as' => NamedTree.mk hn.name hn.kids (fun h => by subst h; exact hn.content)
    cases h : p name ns as
    · simp only [Bool.not_false, if_true]
      refine ⟨hn, Nat.le_refl _, ?_⟩
      rw [descend_elem _ _ _ _ _ _ hn.name, mapAttrs, h]
      simp
    · simp only [Bool.not_true, Bool.false_eq_true, if_false, setAttrs]
      refine ⟨key _, Nat.le_refl _, ?_⟩
      rw [descend_elem _ _ _ _ _ _ hn.name, mapAttrs, h]
      simp
  | doc kids => exact ⟨by simpa [isSpecial, nodeName] using hn, by simp [isSpecial, nodeName], by simp [isSpecial, nodeName, descend, mapAttrs]⟩
  | _ => exact ⟨by simpa [isSpecial, nodeName] using hn, by simp [isSpecial, nodeName], by simp [isSpecial, nodeName, descend, mapAttrs]⟩

theorem C84_gone_aux (p : Str → Option Str → Attrs → Bool) : ∀ m l, Reach m l → ∀ kids, l = without p kids ∨ (∃ n, l = [withoutIn p n] ∧ elemIs p n = false) →
    elemIs p m = false := by
  intro m l h
  have mem : ∀ kids x, x ∈ without p kids → ∃ n, x = withoutIn p n ∧ elemIs p n = false := by
    intro kids
    induction kids with
    | nil => intro x hx; simp [without] at hx
    | cons n ns ih =>
      intro x hx
      rw [without] at hx
      split at hx
      · exact ih x hx
      · rename_i hn
        rcases List.mem_cons.1 hx with rfl | hx
        · exact ⟨n, rfl, by simpa using hn⟩
        · exact ih x hx
  have mem' : ∀ l, (∃ kids, l = without p kids ∨ (∃ n, l = [withoutIn p n] ∧ elemIs p n = false)) → ∀ x ∈ l, ∃ n, x = withoutIn p n ∧ elemIs p n = false := by
    rintro l ⟨kids, rfl | ⟨n, rfl, hn⟩⟩ x hx
    · exact mem kids x hx
    · exact ⟨n, by simpa using hx, hn⟩
  have head : ∀ n, elemIs p (withoutIn p n) = elemIs p n := by
    intro n; cases n <;> simp [withoutIn, elemIs]
  induction h with
  | here h =>
    intro kids hk
    obtain ⟨n, rfl, hn⟩ := mem' _ ⟨kids, hk⟩ _ h
    rw [head]; exact hn
  | kid h1 h2 h3 ih =>
    intro kids hk
    obtain ⟨n, e, hn⟩ := mem' _ ⟨kids, hk⟩ _ h1
    cases n <;> simp [withoutIn] at e
    exact ih _ (.inl e.2.2.2.1)
  | content h1 h2 h3 ih =>
    intro kids hk
    obtain ⟨n, e, hn⟩ := mem' _ ⟨kids, hk⟩ _ h1
    cases n <;> simp [withoutIn] at e
    obtain ⟨-, -, -, -, rfl, e⟩ := e
    exact ih _ (.inl (by simpa using e))
  | doc h1 h2 ih =>
    intro kids hk
    obtain ⟨n, e, hn⟩ := mem' _ ⟨kids, hk⟩ _ h1
    cases n <;> simp [withoutIn] at e
    exact ih _ (.inl e)

/-- C84: after `Drop` no element it matches is left, at any depth. -/
theorem C84_none_left (R : TransEnv) (fuel : List Node → Nat) (hf : EnoughFuel fuel) (s : Str) (p : Str → Option Str → Attrs → Bool) (kids : List Node)
    (hs : dropTagList R.S.E.U s = none) (hp : OwnSel R s p) (hk : ∀ k ∈ kids, Everywhere WellNamed k)
    (m : Node) (hm : Reach m (transform R fuel [.one true (.drop s)] kids)) : elemIs p m = false := by
  rw [C84_drop R fuel hf s p kids hs hp hk] at hm
  exact C84_gone_aux p m _ hm kids (.inl rfl)

/-! ### C86: SetAttrs -/

theorem valueOf_eq (as : Attrs) (k : Str) : valueOf as k = as.lookup k := by
  unfold valueOf
  induction as with
  | nil => rfl
  | cons a as ih =>
    rw [List.find?_cons, List.lookup]
    by_cases h : a.1 = k
    · simp [h]
    · have hb : (k == a.1) = false := by simpa using fun e => h (Eq.symm e)
      simp only [h, decide_false, hb]
      exact ih

theorem lookup_dictSet_ne (k k' : Str) (v : Option Str) (d : Attrs) (h : k' ≠ k) : (dictSet k v d).lookup k' = d.lookup k' := by
  have hb : ∀ a, (k' == a) = decide (a = k') := by
    intro a
    by_cases e : a = k'
    · subst e; simp
    · have : (k' == a) = false := by simpa using fun e' => e (Eq.symm e')
      rw [this]; simp [e]
  unfold dictSet
  split
  · induction d with
    | nil => rfl
    | cons a d ih =>
      have ih' : List.lookup k' (d.map fun p => if p.1 = k then (k, v) else p) = d.lookup k' := by
        by_cases hd : d.any (fun p => p.1 = k) = true
        · exact ih hd
        · have : d.map (fun p => if p.1 = k then (k, v) else p) = d := by
            conv => rhs; rw [← List.map_id d]
            apply List.map_congr_left
            intro p hp
            have : ¬ p.1 = k := fun e => hd (List.any_eq_true.2 ⟨p, hp, by simpa using e⟩)
            simp [this]
          rw [this]
      rw [List.map_cons, List.lookup, List.lookup, ih']
      by_cases ha : a.1 = k
      · rw [if_pos ha]; simp only [hb, ha, Ne.symm h, decide_false]
      · rw [if_neg ha]
  · rw [List.lookup_append]
    cases List.lookup k' d with
    | some x => rfl
    | none => simp [List.lookup, hb, Ne.symm h]

theorem patchStep_same (d : Attrs) (p : Str × Option Str) (h : p.2 ≠ none ∨ d.lookup p.1 ≠ none) : (patchStep d p).lookup p.1 = some p.2 := by
  unfold patchStep
  split
  · exact lookup_dictSet _ _ _
  · rename_i e
    cases hl : d.lookup p.1 with
    | none => rw [hl] at e h; simp at e h; exact absurd e.symm h
    | some v => rw [hl] at e; simpa using e

theorem patchStep_ne (d : Attrs) (p : Str × Option Str) (k : Str) (h : k ≠ p.1) : (patchStep d p).lookup k = d.lookup k := by
  unfold patchStep
  split
  · exact lookup_dictSet_ne _ _ _ _ h
  · rfl

theorem patch_ne (patch : Attrs) : ∀ (as : Attrs) (k : Str), (∀ q ∈ patch, q.1 ≠ k) → (patchAttrs patch as).lookup k = as.lookup k := by
  unfold patchAttrs
  induction patch with
  | nil => intro as k _; rfl
  | cons q patch ih =>
    intro as k h
    rw [List.foldl_cons, ih _ _ (fun q hq => h q (by simp [hq])), patchStep_ne _ _ _ (Ne.symm (h q (by simp)))]

theorem patch_mem (patch : Attrs) (hn : (patch.map Prod.fst).Nodup) : ∀ (as : Attrs) (q : Str × Option Str), q ∈ patch →
    (q.2 ≠ none ∨ as.lookup q.1 ≠ none) → (patchAttrs patch as).lookup q.1 = some q.2 := by
  induction patch with
  | nil => intro as q h; simp at h
  | cons a patch ih =>
    intro as q h hv
    rw [List.map_cons, List.nodup_cons] at hn
    have : patchAttrs (a :: patch) as = patchAttrs patch (patchStep as a) := rfl
    rw [this]
    rcases List.mem_cons.1 h with rfl | h
    · rw [patch_ne _ _ _ (fun q' hq' e => hn.1 (List.mem_map.2 ⟨q', hq', e⟩))]
      exact patchStep_same as q hv
    · refine ih hn.2 _ q h ?_
      have hne : q.1 ≠ a.1 := fun e => hn.1 (List.mem_map.2 ⟨q, h, e⟩)
      rw [patchStep_ne _ _ _ hne]
      exact hv

/-- C86, the shape: `SetAttrs` changes nothing but the attributes of the elements it matches. -/
theorem C86_only_attrs (R : TransEnv) (fuel : List Node → Nat) (hf : EnoughFuel fuel) (s : Str) (patch : Attrs) (p : Str → Option Str → Attrs → Bool)
    (kids : List Node) (hp : OwnSel R s p) (hk : ∀ k ∈ kids, Everywhere WellNamed k) :
    transform R fuel [.one true (.setAttrs s patch)] kids = mapAttrsL (fun name ns as => if p name ns as then patchAttrs patch as else as) kids := by
  rw [transform_walk R fuel _ (opSetAttrs (R.sel s) patch) kids rfl]
  exact walk_attrs R.S {} (R.sel s) p (fun _ as => patchAttrs patch as) hp (fuel kids) kids hk (hf kids)

example : transform TransEnv.sample fuelFor [.one true (.setAttrs c%"i" [(c%"id", some c%"1")])] sampleTree =
    [.elem c%"div" (some c%"html") [] [.text c%"a", .elem c%"b" (some c%"html") [(c%"class", some c%"x")] [.text c%"b"] false [],
      .elem c%"template" (some c%"html") [] [] true [.elem c%"b" (some c%"html") [(c%"class", some c%"x")] [.text c%"c"] false [],
        .elem c%"i" (some c%"html") [(c%"id", some c%"1")] [.text c%"d"] false []]] false []] := by
  rw [C86_only_attrs TransEnv.sample fuelFor fuelFor_enough c%"i" _ _ sampleTree (sample_tag _ (by decide)) sampleTree_named]
  rfl

/-- C86, the values: afterwards every attribute given to `SetAttrs` has the given value, and all others are as before. Partial: an attribute
without value (`None`) must already be there, see `C86_boolean_fails`. -/
theorem C86_values_partial (patch as : Attrs) (hn : (patch.map Prod.fst).Nodup) :
    (∀ k v, (k, v) ∈ patch → v ≠ none ∨ valueOf as k ≠ none → valueOf (patchAttrs patch as) k = some v) ∧
    (∀ k, (∀ q ∈ patch, q.1 ≠ k) → valueOf (patchAttrs patch as) k = valueOf as k) := by
  simp only [valueOf_eq]
  exact ⟨fun k v h hv => patch_mem patch hn as (k, v) h hv, fun k h => patch_ne patch as k h⟩

/-- C86 is false for attributes without value: `SetAttrs("input", attributes={"disabled": None})` does not add `disabled`. -/
theorem C86_boolean_fails : ¬ ∀ (patch as : Attrs), (patch.map Prod.fst).Nodup → ∀ k v, (k, v) ∈ patch → valueOf (patchAttrs patch as) k = some v := by
  intro h
  have := h [(c%"disabled", none)] [] (by decide) c%"disabled" none (by simp)
  exact absurd this (by decide)

end JH
