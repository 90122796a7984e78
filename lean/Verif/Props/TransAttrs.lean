import Verif.Props.TransNodes
/-! C88: transforms that change attributes. -/
namespace JH
open Spec

theorem transform_edit_attrs (R : TransEnv) (fuel : List Node → Nat) (t : Trans) (s : Str) (g : Str → Attrs → Option Attrs) (kids : List Node)
    (h : lowerT R t [] = [.editAttrs s [g]]) :
    transform R fuel [.one true t] kids =
      walkF R.S {} [opEditAttrs (if isStar R.S.E.U s then none else some (R.sel s)) [g]] (fuel kids) [] false [] (kids.map fun k => (k, 0)) := by
  simp only [transform, compileT, List.any_cons, TransSpec.isStage, List.any_nil, Bool.or_self, Bool.false_eq_true, if_false, flattenSpecs, flattenSpec,
    List.append_nil, lowerAll, List.foldl_cons, List.foldl_nil, if_true, h, List.reverse_cons, List.reverse_nil, List.nil_append]
  simp only [runCT, runCT.finishWalk, runCT.finishPrune, List.isEmpty_nil, if_true, List.reverse_cons, List.reverse_nil, List.nil_append, runWalk,
    walkPolicy, opsOfCT, List.flatMap_cons, List.flatMap_nil, List.append_nil]

/-- The selector of an attribute transform: `*` stands for every element. -/
def AttrSel (R : TransEnv) (s : Str) (p : Str → Option Str → Attrs → Bool) : Prop :=
  if isStar R.S.E.U s then p = fun _ _ _ => true else OwnSel R s p

theorem edit_attrs (R : TransEnv) (fuel : List Node → Nat) (hf : EnoughFuel fuel) (t : Trans) (s : Str) (g : Str → Attrs → Option Attrs)
    (p : Str → Option Str → Attrs → Bool) (kids : List Node) (h : lowerT R t [] = [.editAttrs s [g]])
    (hp : AttrSel R s p) (hk : ∀ k ∈ kids, Everywhere WellNamed k) :
    transform R fuel [.one true t] kids = mapAttrsL (fun name ns as => if p name ns as then (g name as).getD as else as) kids := by
  rw [transform_edit_attrs R fuel t s g kids h, opEditAttrs]
  refine walk_attrs R.S {} _ p (applyFuncs [g]) ?_ (fuel kids) kids hk (hf kids)
  intro path name ns as kids tpl content
  unfold AttrSel at hp
  by_cases hs : isStar R.S.E.U s = true
  · rw [if_pos hs] at hp ⊢
    simp [hp]
  · rw [if_neg hs] at hp ⊢
    exact hp path name ns as kids tpl content

/-- C88: `EditAttrs` gives exactly the elements its selector matches the attributes the function returns (`None`: as before), and changes nothing
else. -/
theorem C88_edit_attrs (R : TransEnv) (fuel : List Node → Nat) (hf : EnoughFuel fuel) (s : Str) (f : Str → Attrs → Option Attrs)
    (p : Str → Option Str → Attrs → Bool) (kids : List Node) (hp : AttrSel R s p) (hk : ∀ k ∈ kids, Everywhere WellNamed k) :
    transform R fuel [.one true (.editAttrs s f)] kids =
      mapAttrsL (fun name ns as => if p name ns as then (f name as).getD as else as) kids :=
  edit_attrs R fuel hf _ s f p kids rfl hp hk

/-! ### DropAttrs -/

/-- A usable attribute name: lower-case, not blank, and without `*`. All names from the parser are of this kind, except for the `*`. -/
def Spec.PlainKey (U : Uni) (k : Str) : Prop := U.lower k = k ∧ stripP U.isSpace k ≠ [] ∧ '*' ∉ k

theorem glob_on (k : Str) : Glob c%"on*" k ↔ startsWith c%"on" k = true := by
  simp only [Glob, show ('o' = '*') = False by decide, show ('n' = '*') = False by decide, show ('o' = '?') = False by decide,
    show ('n' = '?') = False by decide, if_false, if_true]
  rw [startsWith_iff]
  constructor
  · rintro ⟨_, rfl, _, rfl, a, b, rfl, rfl⟩
    exact ⟨a, by simp⟩
  · rintro ⟨r, rfl⟩
    exact ⟨_, rfl, _, rfl, r, [], by simp, rfl⟩

theorem glob_srcdoc (k : Str) : Glob c%"srcdoc" k ↔ k = c%"srcdoc" := by
  simp only [Glob, show ('s' = '*') = False by decide, show ('r' = '*') = False by decide, show ('c' = '*') = False by decide, show ('d' = '*') = False by decide,
    show ('o' = '*') = False by decide, show ('s' = '?') = False by decide, show ('r' = '?') = False by decide, show ('c' = '?') = False by decide,
    show ('d' = '?') = False by decide, show ('o' = '?') = False by decide, if_false]
  constructor
  · rintro ⟨_, rfl, _, rfl, _, rfl, _, rfl, _, rfl, _, rfl, rfl⟩; rfl
  · rintro rfl
    exact ⟨_, rfl, _, rfl, _, rfl, _, rfl, _, rfl, _, rfl, rfl⟩

theorem glob_colon (k : Str) : Glob c%"*:*" k ↔ k.contains ':' = true := by
  simp only [Glob, show (':' = '*') = False by decide, show (':' = '?') = False by decide, if_false, if_true, List.contains_eq_mem, decide_eq_true_eq]
  constructor
  · rintro ⟨_, _, rfl, _, rfl, _, _, rfl, rfl⟩; simp
  · intro h
    obtain ⟨a, b, rfl⟩ := List.append_of_mem h
    exact ⟨a, ':' :: b, rfl, b, rfl, b, [], by simp, rfl⟩

theorem globAny_iff (patterns : List Str) (k : Str) (h : '*' ∉ k) : globAny patterns k = true ↔ ∃ q ∈ patterns, Glob q k := by
  simp only [globAny, List.any_eq_true]
  constructor
  · rintro ⟨q, hq, e⟩
    obtain ⟨r, h1, h2⟩ := C51_glob_partial q k h
    rw [h1] at e
    exact ⟨q, hq, h2.1 (by simpa using e)⟩
  · rintro ⟨q, hq, e⟩
    obtain ⟨r, h1, h2⟩ := C51_glob_partial q k h
    exact ⟨q, hq, by rw [h1, h2.2 e]; rfl⟩

theorem forbidden_iff (k : Str) : defaultForbidden k = true ↔ ∃ q ∈ defaultPatterns, Glob q k := by
  simp only [defaultForbidden, defaultPatterns, Bool.or_eq_true, decide_eq_true_eq, List.mem_cons, List.not_mem_nil, or_false, exists_eq_or_imp,
    exists_eq_left, glob_on, glob_srcdoc, glob_colon]
  constructor
  · rintro ((h | h) | h)
    · exact .inr (.inl h)
    · exact .inr (.inr h)
    · exact .inl h
  · rintro (h | h | h)
    · exact .inr h
    · exact .inl (.inl h)
    · exact .inl (.inr h)

theorem foldl_keep (U : Uni) (bad : Str → Bool) (as : Attrs) (hl : ∀ a ∈ as, U.lower a.1 = a.1) (hb : ∀ a ∈ as, blankKey U a.1 = false) :
    ∀ (out : Attrs), ((out ++ as).map Prod.fst).Nodup →
    as.foldl (fun out p => if blankKey U p.1 || bad (U.lower p.1) then out else dictSet (U.lower p.1) p.2 out) out =
      out ++ as.filter fun p => !bad p.1 := by
  induction as with
  | nil => intro out _; simp
  | cons a as ih =>
    intro out hn
    have ha := hl a (by simp)
    have hb' := hb a (by simp)
    rw [List.foldl_cons, hb', ha, Bool.false_or]
    cases hbad : bad a.1
    · have hset : dictSet a.1 a.2 out = out ++ [a] := by
        unfold dictSet
        rw [if_neg]
        intro h
        obtain ⟨x, hx, e⟩ := List.any_eq_true.1 h
        simp only [decide_eq_true_eq] at e
        simp only [List.map_append, List.map_cons] at hn
        exact (List.nodup_append.1 hn).2.2 x.1 (List.mem_map.2 ⟨x, hx, rfl⟩) a.1 (by simp) e
      rw [if_neg (by simp), hset, ih (fun x hx => hl x (by simp [hx])) (fun x hx => hb x (by simp [hx])) (out ++ [a]) (by simpa using hn)]
      simp [hbad]
    · rw [if_pos rfl, ih (fun x hx => hl x (by simp [hx])) (fun x hx => hb x (by simp [hx])) out ?_]
      · simp [hbad]
      · simp only [List.map_append, List.map_cons] at hn ⊢
        exact hn.sublist (List.Sublist.append_left (List.sublist_cons_self _ _) _)

/-- C88: `DropAttrs` removes exactly the attributes whose name one of the patterns matches (`*` any characters, `?` one); the others stay, in their
order. Partial: the names must be lower-case, not blank, and free of `*` (C51); names made by hand that are not are rewritten, see
`C88_case_fails`. -/
theorem C88_drop_attrs_partial (U : Uni) (patterns : List Str) (name : Str) (as : Attrs) (hk : ∀ a ∈ as, PlainKey U a.1)
    (hn : (as.map Prod.fst).Nodup) (keep : Str × Option Str → Bool)
    (hkeep : ∀ a ∈ as, keep a = true ↔ ¬ ∃ q ∈ patterns, Glob q a.1) :
    (dropAttrsFn U patterns name as).getD as = as.filter keep := by
  have blank : ∀ a ∈ as, blankKey U a.1 = false := by
    intro a ha
    have := (hk a ha).2.1
    simp [blankKey, this]
  unfold dropAttrsFn
  by_cases h1 : (as.isEmpty || patterns.isEmpty) = true
  · rw [if_pos h1, Option.getD_none]
    symm
    rw [List.filter_eq_self]
    intro a ha
    rw [hkeep a ha]
    rintro ⟨q, hq, -⟩
    rcases Bool.or_eq_true _ _ ▸ h1 with h | h
    · rw [List.isEmpty_iff.1 h] at ha; simp at ha
    · rw [List.isEmpty_iff.1 h] at hq; simp at hq
  · rw [if_neg h1]
    by_cases h2 : patterns = defaultPatterns
    · rw [if_pos h2]
      have key : ∀ a ∈ as, keep a = !defaultForbidden (U.lower a.1) := by
        intro a ha
        rw [(hk a ha).1, Bool.eq_iff_iff, hkeep a ha, h2, ← forbidden_iff]
        simp
      have hfl : as.filter keep = as.filter fun p => !defaultForbidden (U.lower p.1) := List.filter_congr key
      rw [hfl]
      split
      · rfl
      · rename_i h
        rw [Option.getD_none]
        symm
        rw [List.filter_eq_self]
        intro a ha
        simp only [Bool.not_eq_true, List.any_eq_false] at h
        simpa using h a ha
    · rw [if_neg h2]
      have key : ∀ a ∈ as, keep a = !globAny patterns a.1 := by
        intro a ha
        rw [Bool.eq_iff_iff, hkeep a ha, ← globAny_iff _ _ (hk a ha).2.2]
        simp
      have hfl : as.filter keep = as.filter fun p => !globAny patterns p.1 := List.filter_congr key
      rw [hfl]
      split
      · rw [Option.getD_some]
        have := foldl_keep U (globAny patterns) as (fun a ha => (hk a ha).1) blank [] (by simpa using hn)
        simpa using this
      · rename_i h
        rw [Option.getD_none]
        symm
        rw [List.filter_eq_self]
        intro a ha
        simp only [Bool.not_eq_true, List.any_eq_false] at h
        have := h a ha
        rw [blank a ha, (hk a ha).1] at this
        simpa using this

/-- C88: `DropAttrs` as a transform changes nothing but the attributes of the elements its selector matches. -/
theorem C88_drop_attrs_shape (R : TransEnv) (fuel : List Node → Nat) (hf : EnoughFuel fuel) (s : Str) (patterns : List Str)
    (p : Str → Option Str → Attrs → Bool) (kids : List Node) (hp : AttrSel R s p) (hk : ∀ k ∈ kids, Everywhere WellNamed k) :
    transform R fuel [.one true (.dropAttrs s patterns)] kids =
      mapAttrsL (fun name ns as => if p name ns as then (dropAttrsFn R.S.E.U patterns name as).getD as else as) kids :=
  edit_attrs R fuel hf _ s _ p kids rfl hp hk

example : (dropAttrsFn Uni.sample [c%"data-*"] c%"a" [(c%"data-x", none), (c%"href", some c%"/"), (c%"data-", none)]).getD [] = [(c%"href", some c%"/")] := by
  decide +kernel

/-- C88 is false for names in upper case, which trees made by hand can have: once one attribute is dropped, the names of the others are changed. -/
theorem C88_case_fails : ¬ ∀ (U : Uni) (patterns : List Str) (name : Str) (as : Attrs), (as.map Prod.fst).Nodup →
    ∀ a ∈ as, (¬ ∃ q ∈ patterns, Glob q (U.lower a.1)) → a ∈ (dropAttrsFn U patterns name as).getD as := by
  intro h
  have := h Uni.sample [c%"x"] c%"a" [(c%"x", none), (c%"Id", none)] (by decide) (c%"Id", none) (by simp) (by
    rintro ⟨q, hq, hg⟩
    simp only [List.mem_singleton] at hq
    subst hq
    rw [show Uni.sample.lower c%"Id" = c%"id" by decide] at hg
    simp only [Glob, show ('x' = '*') = False by decide, show ('x' = '?') = False by decide, if_false] at hg
    obtain ⟨_, h, -⟩ := hg
    simp at h)
  revert this
  decide +kernel

/-! ### MergeAttrs -/

theorem mergeTokens_spec (U : Uni) (tag attr : Str) (tokens : List Str) (hT : ∀ t ∈ tokens, t ≠ [] ∧ ∀ c ∈ t, U.isSpace c = false) (name : Str) (as : Attrs)
    (hn : U.lower name = tag) :
    ∃ v, (mergeTokens U tag attr tokens name as).lookup attr = some (some v) ∧ (words v).Nodup ∧
      (∀ t, t ∈ words v ↔ t ∈ tokens ∨ ∃ p ∈ as, U.lower p.1 = attr ∧ t ∈ tokensOf U (p.2.getD [])) ∧
      ∀ q ∈ mergeTokens U tag attr tokens name as, U.lower q.1 = attr → q.1 = attr := by
  have key : ∀ all : List Str, all = tokens.foldl addToken (((as.filter fun p => U.lower p.1 = attr).flatMap fun p => relTokens U p.2).foldl addToken []) →
      (words (join c%" " all)).Nodup ∧
      (∀ t, t ∈ words (join c%" " all) ↔ t ∈ tokens ∨ ∃ p ∈ as, U.lower p.1 = attr ∧ t ∈ tokensOf U (p.2.getD [])) := by
    intro all e
    have hmem : ∀ t, t ∈ all ↔ t ∈ tokens ∨ ∃ p ∈ as, U.lower p.1 = attr ∧ t ∈ tokensOf U (p.2.getD []) := by
      intro t
      rw [e, mem_addTokens, mem_addTokens]
      simp only [List.not_mem_nil, false_or, List.mem_flatMap, List.mem_filter, decide_eq_true_eq, relTokens_eq]
      constructor
      · rintro (⟨p, ⟨h1, h2⟩, h3⟩ | h)
        · exact .inr ⟨p, h1, h2, h3⟩
        · exact .inl h
      · rintro (h | ⟨p, h1, h2, h3⟩)
        · exact .inr h
        · exact .inl ⟨p, ⟨h1, h2⟩, h3⟩
    have hok : ∀ t ∈ all, t ≠ [] ∧ ∀ x ∈ t, ws x = false := by
      intro t ht
      rcases (hmem t).1 ht with h | ⟨p, -, -, h⟩
      · exact ⟨(hT t h).1, fun x hx => ws_of_nospace U x ((hT t h).2 x hx)⟩
      · obtain ⟨t0, h0, rfl⟩ := List.mem_map.1 h
        have := runs_pieces _ _ t0 h0
        exact ⟨U.lower_ne _ this.1, fun x hx => ws_of_nospace U x (U.lower_space t0 this.2 x hx)⟩
    rw [words_join all hok]
    refine ⟨?_, hmem⟩
    rw [e]
    exact addTokens_nodup _ _ (addTokens_nodup _ _ List.nodup_nil)
  unfold mergeTokens
  rw [if_neg (by simpa using hn)]
  dsimp only
  generalize hall : tokens.foldl addToken (((as.filter fun p => U.lower p.1 = attr).flatMap fun p => relTokens U p.2).foldl addToken []) = all
  obtain ⟨h1, h2⟩ := key all hall.symm
  refine ⟨join c%" " all, ?_, h1, h2, ?_⟩
  · split
    · exact lookup_dictSet _ _ _
    · rename_i h
      simp only [Bool.or_eq_true, not_or, decide_eq_true_eq, Classical.not_not] at h
      have h2 := h.2
      cases hlk : as.lookup attr with
      | none => rw [hlk] at h2; simp at h2
      | some v => rw [hlk] at h2; simpa using h2
  · split
    · intro q hq hl
      rcases mem_dictSet hq with rfl | ⟨hq, -⟩
      · rfl
      · have := (List.mem_filter.1 hq).2
        simpa [hl] using this
    · rename_i h
      intro q hq hl
      simp only [Bool.or_eq_true, not_or, Bool.and_eq_true, not_and] at h
      have h3 := h.1.2
      have hne : (as.filter fun p => U.lower p.1 = attr).isEmpty = false := by
        have : q ∈ as.filter fun p => U.lower p.1 = attr := List.mem_filter.2 ⟨hq, by simpa using hl⟩
        cases hfl : as.filter fun p => U.lower p.1 = attr with
        | nil => rw [hfl] at this; simp at this
        | cons => rfl
      have h4 := (h3 (by simp [hne])).2
      simp only [List.any_eq_true, not_exists, not_and] at h4
      have := h4 q (List.mem_filter.2 ⟨hq, by simpa using hl⟩)
      simpa using this

/-- C88: `MergeAttrs` adds the tokens to the attribute of the elements with the tag: afterwards the attribute has the old tokens (in lower case, those of
all spellings of the name) and the new ones, each once, and there is no other spelling of it. -/
theorem C88_merge_attrs (U : Uni) (tag attr : Str) (tokens : List Str) (hT : ∀ t ∈ tokens, t ≠ [] ∧ ∀ c ∈ t, U.isSpace c = false) (name : Str) (as : Attrs)
    (hn : U.lower name = tag) :
    ∃ v, valueOf (mergeTokens U tag attr tokens name as) attr = some (some v) ∧ (words v).Nodup ∧
      (∀ t, t ∈ words v ↔ t ∈ tokens ∨ ∃ p ∈ as, U.lower p.1 = attr ∧ t ∈ tokensOf U (p.2.getD [])) ∧
      ∀ q ∈ mergeTokens U tag attr tokens name as, U.lower q.1 = attr → q.1 = attr := by
  rw [valueOf_eq]
  exact mergeTokens_spec U tag attr tokens hT name as hn

/-- C88: the other attributes are left as they are. -/
theorem C88_merge_others (U : Uni) (tag attr : Str) (tokens : List Str) (name : Str) (as : Attrs) (k : Str) (hk : U.lower k ≠ attr) (hk' : k ≠ attr) :
    valueOf (mergeTokens U tag attr tokens name as) k = valueOf as k := by
  rw [valueOf_eq, valueOf_eq]
  unfold mergeTokens
  split
  · rfl
  · dsimp only
    split
    · rw [lookup_dictSet_ne _ _ _ _ hk', lookup_filter_ne]
      intro p _ e
      simp [e, hk]
    · rfl

/-- C88: `MergeAttrs` changes nothing but the attributes of the elements with its tag. -/
theorem C88_merge_shape (R : TransEnv) (fuel : List Node → Nat) (hf : EnoughFuel fuel) (tag attr : Str) (tokens : List Str) (ht : tokens ≠ [])
    (kids : List Node) (hk : ∀ k ∈ kids, Everywhere WellNamed k) :
    transform R fuel [.one true (.mergeAttrs tag attr tokens)] kids =
      mapAttrsL (fun name _ as => if R.S.E.U.lower name = tag then mergeTokens R.S.E.U tag attr tokens name as else as) kids := by
  rw [transform_walk R fuel _ (opMerge R.S.E.U tag attr tokens) kids (by simp [lowerT, ht]), opMerge]
  rw [walk_attrs R.S {} _ (fun _ _ _ => true) (mergeTokens R.S.E.U tag attr tokens) (fun _ _ _ _ _ _ _ => rfl) (fuel kids) kids hk (hf kids)]
  congr 1
  funext name ns as
  simp only [if_true]
  split
  · rfl
  · rename_i h
    simp [mergeTokens, h]

example : mergeTokens Uni.sample c%"a" c%"rel" [c%"nofollow"] c%"a" [(c%"REL", some c%"ME nofollow"), (c%"href", some c%"/")] =
    [(c%"href", some c%"/"), (c%"rel", some c%"me nofollow")] := by decide +kernel

/-! ### AllowlistAttrs -/

theorem foldl_allow (U : Uni) (allowed : List Str) (as : Attrs) (hl : ∀ a ∈ as, U.lower a.1 = a.1) (hb : ∀ a ∈ as, stripP U.isSpace a.1 ≠ []) :
    ∀ (out : Attrs), ((out ++ as).map Prod.fst).Nodup → as.foldl (allowStep U allowed) out = out ++ as.filter fun p => allowed.contains p.1 := by
  induction as with
  | nil => intro out _; simp
  | cons a as ih =>
    intro out hn
    have ha := hl a (by simp)
    have hb' : (stripP U.isSpace a.1).isEmpty = false := by simpa using hb a (by simp)
    have hset : dictSet a.1 a.2 out = out ++ [a] := by
      unfold dictSet
      rw [if_neg]
      intro h
      obtain ⟨x, hx, e⟩ := List.any_eq_true.1 h
      simp only [decide_eq_true_eq] at e
      simp only [List.map_append, List.map_cons] at hn
      exact (List.nodup_append.1 hn).2.2 x.1 (List.mem_map.2 ⟨x, hx, rfl⟩) a.1 (by simp) e
    rw [List.foldl_cons]
    simp only [allowStep, hb', ha, Bool.false_eq_true, if_false, hset]
    by_cases hc : allowed.contains a.1 = true
    · rw [if_pos hc, ih (fun x hx => hl x (by simp [hx])) (fun x hx => hb x (by simp [hx])) (out ++ [a]) (by simpa using hn), List.filter_cons, if_pos hc]
      simp
    · rw [if_neg hc, if_neg hc, ih (fun x hx => hl x (by simp [hx])) (fun x hx => hb x (by simp [hx])) out ?_, List.filter_cons, if_neg hc]
      simp only [List.map_append, List.map_cons] at hn ⊢
      exact hn.sublist (List.Sublist.append_left (List.sublist_cons_self _ _) _)

theorem lookup_of_mem1 {β : Type} (l : List (Str × β)) (hn : (l.map Prod.fst).Nodup) (k : Str) (v : β) (h : (k, v) ∈ l) : l.lookup k = some v := by
  induction l with
  | nil => simp at h
  | cons a l ih =>
    rw [List.map_cons, List.nodup_cons] at hn
    rcases List.mem_cons.1 h with rfl | h
    · simp [List.lookup]
    · have hne : (k == a.1) = false := by
        simp only [beq_eq_false_iff_ne]
        intro e
        exact hn.1 (List.mem_map.2 ⟨(k, v), h, e⟩)
      rw [List.lookup, hne]
      exact ih hn.2 h

/-- The attribute `k` is allowed for elements `name`: listed for `*` or for the name. -/
def Spec.Listed (allowed : List (Str × List Str)) (name k : Str) : Prop := ∃ e ∈ allowed, (e.1 = c%"*" ∨ e.1 = name) ∧ k ∈ e.2

theorem allowedFor_iff (U : Uni) (allowed : List (Str × List Str)) (hd : (allowed.map Prod.fst).Nodup) (hl : ∀ e ∈ allowed, U.lower e.1 = e.1)
    (name : Str) (hn : U.lower name = name) (hs : name ≠ c%"*") (k : Str) : k ∈ allowedFor U allowed name ↔ Listed allowed name k := by
  have hby : allowedByTag U allowed = ((allowed.filter fun p => p.1 ≠ c%"*").map fun p => (p.1, (allowed.lookup c%"*").getD [] ++ p.2)).reverse := by
    unfold allowedByTag
    congr 1
    apply List.map_congr_left
    intro p hp
    rw [hl p (List.mem_filter.1 hp).1]
  have hnd : ((allowedByTag U allowed).map Prod.fst).Nodup := by
    rw [hby, List.map_reverse, (List.reverse_perm _).nodup_iff, List.map_map]
    exact hd.sublist (List.Sublist.map _ List.filter_sublist)
  have star : k ∈ (allowed.lookup c%"*").getD [] ↔ ∃ e ∈ allowed, e.1 = c%"*" ∧ k ∈ e.2 := by
    constructor
    · intro h
      cases hl : allowed.lookup c%"*" with
      | none => rw [hl] at h; simp at h
      | some v => rw [hl] at h; exact ⟨_, lookup_mem hl, rfl, h⟩
    · rintro ⟨⟨e1, e2⟩, he, rfl, hk⟩
      rw [lookup_of_mem1 allowed hd _ _ he]
      exact hk
  unfold allowedFor
  rw [hn]
  cases hlk : (allowedByTag U allowed).lookup name with
  | some v =>
    dsimp only
    have := lookup_mem hlk
    rw [hby, List.mem_reverse] at this
    obtain ⟨e, he, heq⟩ := List.mem_map.1 this
    simp only [Prod.mk.injEq] at heq
    obtain ⟨rfl, rfl⟩ := heq
    rw [List.mem_append, star]
    have he' := (List.mem_filter.1 he).1
    constructor
    · rintro (⟨x, hx, h1, h2⟩ | h)
      · exact ⟨x, hx, .inl h1, h2⟩
      · exact ⟨e, he', .inr rfl, h⟩
    · rintro ⟨x, hx, h1 | h1, h2⟩
      · exact .inl ⟨x, hx, h1, h2⟩
      · right
        have e1 := lookup_of_mem1 allowed hd x.1 x.2 hx
        have e2 := lookup_of_mem1 allowed hd e.1 e.2 he'
        rw [h1, e2] at e1
        simp only [Option.some.injEq] at e1
        rw [e1]; exact h2
  | none =>
    dsimp only
    rw [star]
    constructor
    · rintro ⟨x, hx, h1, h2⟩
      exact ⟨x, hx, .inl h1, h2⟩
    · rintro ⟨x, hx, h1 | h1, h2⟩
      · exact ⟨x, hx, h1, h2⟩
      · exfalso
        have hm : (x.1, (allowed.lookup c%"*").getD [] ++ x.2) ∈ allowedByTag U allowed := by
          rw [hby, List.mem_reverse]
          exact List.mem_map.2 ⟨x, List.mem_filter.2 ⟨hx, by simp [h1, hs]⟩, rfl⟩
        have := lookup_of_mem1 _ hnd _ _ hm
        rw [h1, hlk] at this
        simp at this

/-- C88: `AllowlistAttrs` keeps exactly the attributes listed for the element's name or for `*`, in their order. Partial: names in lower case, not
blank, as the parser makes them. -/
theorem C88_allowlist_partial (U : Uni) (allowed : List (Str × List Str)) (hd : (allowed.map Prod.fst).Nodup) (hlow : ∀ e ∈ allowed, U.lower e.1 = e.1)
    (name : Str) (hn : U.lower name = name) (hs : name ≠ c%"*") (as : Attrs) (hk : ∀ a ∈ as, U.lower a.1 = a.1 ∧ stripP U.isSpace a.1 ≠ [])
    (hnd : (as.map Prod.fst).Nodup) (keep : Str × Option Str → Bool) (hkeep : ∀ a ∈ as, keep a = true ↔ Listed allowed name a.1) :
    allowlistAttrs U allowed name as = as.filter keep := by
  have hfl : as.filter keep = as.filter fun p => (allowedFor U allowed name).contains p.1 := by
    apply List.filter_congr
    intro a ha
    rw [Bool.eq_iff_iff, hkeep a ha, ← allowedFor_iff U allowed hd hlow name hn hs]
    simp
  rw [hfl]
  unfold allowlistAttrs
  dsimp only
  split
  · rename_i h
    symm
    rw [List.filter_eq_self]
    intro a ha
    have := List.all_eq_true.1 h a ha
    simp only [Bool.and_eq_true] at this
    exact this.2
  · have := foldl_allow U (allowedFor U allowed name) as (fun a ha => (hk a ha).1) (fun a ha => (hk a ha).2) [] (by simpa using hnd)
    simpa using this

/-- C88: `AllowlistAttrs` changes nothing but the attributes of the elements its selector matches. -/
theorem C88_allowlist_shape (R : TransEnv) (fuel : List Node → Nat) (hf : EnoughFuel fuel) (s : Str) (allowed : List (Str × List Str))
    (p : Str → Option Str → Attrs → Bool) (kids : List Node) (hp : AttrSel R s p) (hk : ∀ k ∈ kids, Everywhere WellNamed k) :
    transform R fuel [.one true (.allowlistAttrs s allowed)] kids =
      mapAttrsL (fun name ns as => if p name ns as then allowlistAttrs R.S.E.U allowed name as else as) kids := by
  rw [edit_attrs R fuel hf _ s _ p kids rfl hp hk]
  rfl

example : allowlistAttrs Uni.sample [(c%"*", [c%"id"]), (c%"a", [c%"href"])] c%"a" [(c%"onclick", none), (c%"href", some c%"/"), (c%"id", some c%"1")] =
    [(c%"href", some c%"/"), (c%"id", some c%"1")] := by decide +kernel

end JH
