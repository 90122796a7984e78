import Verif.Spec.Construct
import Verif.Model.Construct
import Verif.Lemmas.EngRootKeep
import Verif.Props.EngInvent
import Verif.Props.Removing
import Verif.Props.SanOrigin
/-! Property C104: the constructor from the input to the sanitized tree. -/
namespace JH
open Spec
set_option maxRecDepth 100000
seal Eng.result Eng.run

/-! ### The parse tree -/

/-- The nodes the parser makes of a text. -/
def parseKids (E : UrlEnv) (T : EntTables) (a : Args) (html : Str) : List Node :=
  match Eng.result (Eng.rawCfg E T a.fragment html a.ctx a.ctxNs a.scripting) with
  | .doc kids => kids
  | n => [n]

theorem parse_doc (E : UrlEnv) (T : EntTables) (a : Args) (html : Str) :
    Eng.result (Eng.rawCfg E T a.fragment html a.ctx a.ctxNs a.scripting) = .doc (parseKids E T a html) := by
  obtain ⟨kids, h⟩ := Eng.result_doc (Eng.rawCfg E T a.fragment html a.ctx a.ctxNs a.scripting)
  unfold parseKids
  rw [h]

theorem construct_raw (R : TransEnv) (T : EntTables) (fuel : List Node → Nat) (a : Args) (src : Source) (hc : a.compiled = false) :
    construct R T fuel a src = (sourceText R.S.E.U a src).map fun html => .doc (transform R fuel a.specs (parseKids R.S.E T a html)) := by
  unfold construct
  cases sourceText R.S.E.U a src with
  | none => rfl
  | some html =>
    simp only [hc, Bool.false_eq_true, if_false, Option.map_some]
    rw [parse_doc]

theorem transform_none (R : TransEnv) (fuel : List Node → Nat) (kids : List Node) : transform R fuel [] kids = kids := by
  simp [transform, compileT, lowerAll, flattenSpecs, runCT, runCT.finishWalk, runCT.finishPrune, runWalk]

/-! ### Names -/

theorem lowerA_head {s : Str} {c : Char} (h : (lowerA s).head? = some c) : ∃ d, s.head? = some d ∧ lowerC d = c := by
  cases s with
  | nil => simp [lowerA] at h
  | cons d s => exact ⟨d, rfl, by simpa [lowerA] using h⟩

theorem letter_ascii {c : Char} (h : ('a' ≤ c ∧ c ≤ 'z') ∨ ('A' ≤ c ∧ c ≤ 'Z')) : isAscii c = true ∧ lowerC c ≠ '#' ∧ lowerC c ≠ '!' ∧ c ≠ '\x00' ∧
    lowerC (lowerC c) = lowerC c := by
  refine ⟨?_, ?_, ?_, ?_, lowerC_idem c⟩
  · have hz : 'z'.toNat = 122 := rfl
    have hZ : 'Z'.toNat = 90 := rfl
    rw [isAscii, decide_eq_true_eq]
    rcases h with ⟨-, h2⟩ | ⟨-, h2⟩ <;> (have h3 := UInt32.le_iff_toNat_le.1 h2; have h4 : c.val.toNat = c.toNat := rfl; have h5 : 'z'.val.toNat = 122 := rfl; have h6 : 'Z'.val.toNat = 90 := rfl; omega)
  · intro e
    by_cases hu : isUpperC c = true
    · have := (lowerC_toNat c hu); rw [e] at this; simp at this; omega
    · have : lowerC c = c := by simp [lowerC, hu]
      rw [this] at e; subst e; revert h; decide
  · intro e
    by_cases hu : isUpperC c = true
    · have := (lowerC_toNat c hu); rw [e] at this; simp at this; omega
    · have : lowerC c = c := by simp [lowerC, hu]
      rw [this] at e; subst e; revert h; decide
  · intro e; subst e; revert h; decide

theorem tagOccurs_proper {U : Uni} {html name : Str} (h : TagOccurs U html name) : ProperName name := by
  obtain ⟨pre, w, post, -, ⟨c, r, rfl, hc, -⟩, -, v, hv, hn⟩ := h
  obtain ⟨h1, h2, h3, h4, h5⟩ := letter_ascii hc
  have hv' : ∃ d, v.head? = some d ∧ lowerC d = lowerC c ∧ d ≠ '\x00' := by
    rcases hv with rfl | rfl | rfl
    · exact ⟨c, rfl, rfl, h4⟩
    · refine ⟨lowerC c, rfl, h5, ?_⟩
      intro e
      have : lowerC (lowerC c) = lowerC '\x00' := by rw [e]
      rw [h5, e] at this
      by_cases hu : isUpperC c = true
      · have := (lowerC_toNat c hu); rw [e] at this; simp at this
      · have : lowerC c = c := by simp [lowerC, hu]
        rw [this] at e; exact h4 e
    · refine ⟨lowerC c, U.lower_head c r h1, h5, ?_⟩
      intro e
      by_cases hu : isUpperC c = true
      · have := (lowerC_toNat c hu); rw [e] at this; simp at this
      · have : lowerC c = c := by simp [lowerC, hu]
        rw [this] at e; exact h4 e
  obtain ⟨d, hd, hdc, hd0⟩ := hv'
  have hh : (lowerA name).head? = some (lowerC c) := by
    rcases hn with e | e
    · rw [e]; cases v <;> simp_all [lowerA]
    · rw [e]
      cases v with
      | nil => simp at hd
      | cons x v =>
        simp only [List.head?_cons, Option.some.injEq] at hd
        subst hd
        simp [lowerA, if_neg hd0, hdc]
  constructor
  · intro e
    obtain ⟨x, hx, hxc⟩ := lowerA_head hh
    rw [e] at hx
    simp only [Option.some.injEq] at hx
    subst hx
    exact h2 (hxc ▸ by decide)
  · intro e
    rw [e] at hh
    have : (lowerA c%"!doctype").head? = some '!' := by decide
    rw [this] at hh
    simp only [Option.some.injEq] at hh
    exact h3 hh.symm

instance (name : Str) : Decidable (ProperName name) := inferInstanceAs (Decidable (_ ∧ _))

theorem nameFrom_well {U : Uni} {html : Str} {own : List Str} (ho : ∀ x ∈ own, ProperName x) (n : Node) (h : NameFrom U html own n) : WellNamed n := by
  intro name ns as kids tpl content e
  subst e
  rcases h with h | h | ⟨rfl, -⟩
  · exact ho _ h
  · exact tagOccurs_proper h
  · exact ⟨by decide, by decide⟩

/-- Every element the parser makes has a proper name. -/
theorem parse_named (E : UrlEnv) (T : EntTables) (a : Args) (html : Str) (hx : a.fragment = true → ProperName a.ctx) : EverywhereL WellNamed (parseKids E T a html) := by
  have base : ∀ x ∈ Eng.implied, ProperName x := by decide +kernel
  have key : Everywhere WellNamed (Eng.result (Eng.rawCfg E T a.fragment html a.ctx a.ctxNs a.scripting)) := by
    cases hf : a.fragment with
    | true =>
      refine Eng.everywhere_imp (fun n hn => nameFrom_well ?_ n hn) _ (Eng.C80_fragment_names E T html a.ctx a.ctxNs a.scripting).2
      intro x hx'
      rcases List.mem_cons.1 hx' with rfl | hx'
      · exact hx hf
      · rcases List.mem_append.1 hx' with hx' | hx'
        · split at hx'
          · exact (by decide +kernel : ∀ x ∈ [c%"head", c%"body"], ProperName x) x hx'
          · simp at hx'
        · exact base x hx'
    | false =>
      have e : Eng.rawCfg E T false html a.ctx a.ctxNs a.scripting = Eng.rawCfg E T false html (scripting := a.scripting) := rfl
      rw [e]
      refine Eng.everywhere_imp (fun n hn => nameFrom_well ?_ n hn) _ (Eng.C80_document_names E T html a.scripting).2
      exact (by decide +kernel : ∀ x ∈ c%"html" :: c%"head" :: c%"body" :: Eng.implied, ProperName x)
  rw [parse_doc] at key
  exact key.2


mutual
theorem clean_named (S : SanEnv) (C : SanCfg) : ∀ (n : Node) (hoist fc : Bool) (m : Node), Everywhere WellNamed n → Reach m (clean S C hoist fc n).1 → WellNamed m
  | .elem name ns as kids tpl content, hoist, fc, m, hw, hm => by
    obtain ⟨hw0, hw1, hw2⟩ := hw
    have hp : ProperName name := hw0 name ns as kids tpl content rfl
    have hs : isSpecial (.elem name ns as kids tpl content) = false := (special_iff name ns as kids tpl content).2 hp
    have leaf : (∀ a b c d e f, m ≠ .elem a b c d e f) → WellNamed m := fun h a b c d e f he => absurd he (h a b c d e f)
    have walked : ∀ fg as', Reach m [.elem name ns as' (cleanL S C false fg kids).1 tpl (if tpl then (cleanL S C false fg content).1 else content)] → WellNamed m := by
      intro fg as' hr
      rcases reach_elem hr with rfl | ⟨hn, h | ⟨ht, h⟩⟩
      · intro a b c d e f he
        simp only [Node.elem.injEq] at he
        obtain ⟨rfl, -⟩ := he
        exact hp
      · exact cleanL_named S C kids false fg m hw1 h
      · rw [if_pos ht] at h
        exact cleanL_named S C content false fg m (hw2 ht) h
    simp only [clean] at hm
    rw [if_neg (by simp [hs])] at hm
    by_cases hf : (!hoist && (fc || isForeign S.E.U (.elem name ns as kids tpl content))) = true
    · rw [if_pos hf] at hm; exact (reach_nil hm).elim
    · rw [if_neg hf] at hm
      have up : Reach m (cutSeq (cleanL S C true fc kids) (if tpl then cleanL S C true fc content else ([], false))).1 → WellNamed m := by
        intro hr
        rcases reach_cutSeq hr with h | h
        · exact cleanL_named S C kids true fc m hw1 h
        · by_cases ht : tpl = true
          · rw [if_pos ht] at h
            exact cleanL_named S C content true fc m (hw2 ht) h
          · rw [if_neg ht] at h; exact (reach_nil h).elim
      generalize hd : decision S.E.U C name = d at hm
      cases d with
      | keep => exact walked _ _ hm
      | drop => exact (reach_nil hm).elim
      | unwrap => exact up hm
      | escape =>
        rcases reach_cutSeq hm with h | h
        · exact leaf (tagText_elem C _ m h)
        · rcases reach_cutSeq h with h | h
          · exact up h
          · exact leaf (tagText_elem C _ m h)
  | .doc kids, hoist, fc, m, hw, hm => by
    simp only [clean] at hm
    cases hm with
    | here h => have := List.mem_singleton.1 h; subst this; intro a b c d e f he; simp at he
    | kid h => simp at h
    | content h => simp at h
    | doc h h' =>
      simp only [List.mem_singleton, Node.doc.injEq] at h
      subst h
      exact cleanL_named S C kids false fc m hw.2 h'
  | .text d, _, _, m, _, hm => by simp only [clean] at hm; exact fun a b c d e f he => absurd he (cleanLeaf_elem S C _ m (by simp) (by simp) hm a b c d e f)
  | .comment d, _, _, m, _, hm => by simp only [clean] at hm; exact fun a b c d e f he => absurd he (cleanLeaf_elem S C _ m (by simp) (by simp) hm a b c d e f)
  | .pi d, _, _, m, _, hm => by simp only [clean] at hm; exact fun a b c d e f he => absurd he (cleanLeaf_elem S C _ m (by simp) (by simp) hm a b c d e f)
  | .doctype _ _ _, _, _, m, _, hm => by simp only [clean] at hm; exact fun a b c d e f he => absurd he (cleanLeaf_elem S C _ m (by simp) (by simp) hm a b c d e f)
theorem cleanL_named (S : SanEnv) (C : SanCfg) : ∀ (l : List Node) (hoist fc : Bool) (m : Node), EverywhereL WellNamed l → Reach m (cleanL S C hoist fc l).1 → WellNamed m
  | [], _, _, m, _, hm => by simp only [cleanL] at hm; exact (reach_nil hm).elim
  | n :: l, hoist, fc, m, hw, hm => by
    simp only [cleanL] at hm
    rcases reach_cutSeq hm with h | h
    · exact clean_named S C n hoist fc m hw.1 h
    · exact cleanL_named S C l hoist fc m hw.2 h
end

/-! ### `Sanitize` first -/

/-- Enough steps for every walk (the program walks until nothing is left to do). -/
def FullFuel (fuel : List Node → Nat) : Prop := ∀ kids, 2 * Node.sizeL kids < fuel kids

theorem walk_sanitize (S : SanEnv) (C : SanCfg) (fuel : Nat) (kids : List Node) (h : 2 * Node.sizeL kids < fuel) :
    transformKids S C [] fuel kids = sanitizeKids S C kids := by
  have key : ∀ n, 2 * Node.sizeL kids < n → walkF S C ([] ++ sanOps C) n [] false [] (kids.map fun k => (k, 0)) = (cleanL S C false false kids).1 := by
    intro n hn
    rw [List.nil_append, walkF_clean S C n [] false [] (kids.map fun k => (k, 0)), cleanItems_zero]
    · simp
    · intro x hx
      obtain ⟨y, -, rfl⟩ := List.mem_map.1 hx
      exact .inl (Nat.zero_le _)
    · rw [itemsCost_map _ 0 (Nat.zero_le _)]; exact hn
  unfold sanitizeKids transformKids
  rw [key _ h, key _ (by unfold walkFuel; omega)]

theorem transform_sanitize (R : TransEnv) (fuel : List Node → Nat) (hf : FullFuel fuel) (C : SanCfg) (kids : List Node) :
    transform R fuel [.one true (.sanitize C)] kids = sanitizeKids R.S C kids := by
  rw [← walk_sanitize R.S C (fuel kids) kids (hf kids)]
  simp only [transform, compileT, List.any_cons, TransSpec.isStage, List.any_nil, Bool.or_self, Bool.false_eq_true, if_false]
  have : lowerAll R (flattenSpecs [.one true (.sanitize C)]) = [.sanitize C] := rfl
  rw [this]
  simp only [runCT, runCT.finishWalk, runCT.finishPrune, List.isEmpty_nil, if_true, List.reverse_nil, List.reverse_cons, List.nil_append, runWalk]
  have e : List.flatMap (opsOfCT R [CT.sanitize C]) [CT.sanitize C] = [] ++ sanOps C := by simp [opsOfCT]
  rw [e]
  rfl


theorem splitStages_first (x : TransSpec) : ∀ (post acc : List TransSpec), (∀ s ∈ post, RemovingSpec s) → (∀ s ∈ acc, RemovingSpec s) →
    ∃ rest tail, splitStages (acc ++ [x]) post = (x :: rest) :: tail ∧ RemovingSpecs rest ∧ ∀ st ∈ tail, RemovingSpecs st := by
  intro post
  induction post with
  | nil =>
    intro acc _ ha
    refine ⟨acc.reverse, [], ?_, (removingSpecs_iff _).2 (by simpa using ha), by simp⟩
    simp [splitStages]
  | cons s post ih =>
    intro acc hp ha
    have hs := hp s (by simp)
    have hr : ∀ s ∈ post, RemovingSpec s := fun s hs => hp s (by simp [hs])
    cases s with
    | one e' t' =>
      obtain ⟨rest, tail, h1, h2, h3⟩ := ih (.one e' t' :: acc) hr (by
        intro x hx
        rcases List.mem_cons.1 hx with rfl | hx
        · exact hs
        · exact ha x hx)
      exact ⟨rest, tail, by rw [splitStages.eq_def]; exact h1, h2, h3⟩
    | stage e' l =>
      cases e' with
      | false =>
        obtain ⟨rest, tail, h1, h2, h3⟩ := ih acc hr ha
        exact ⟨rest, tail, by simpa [splitStages] using h1, h2, h3⟩
      | true =>
        refine ⟨acc.reverse, l :: splitStages [] post, ?_, (removingSpecs_iff _).2 (by simpa using ha), ?_⟩
        · simp [splitStages]
        · intro st hst
          rcases List.mem_cons.1 hst with rfl | hst
          · simpa only [RemovingSpec] using hs
          · exact splitStages_removing post [] (by simp) hr st hst

theorem compile_first (R : TransEnv) (post : List TransSpec) (C : SanCfg) (hp : RemovingSpecs post) :
    ∃ l1 l2, compileT R (.one true (.sanitize C) :: post) = l1 ++ .sanitize C :: l2 ∧ (l1 = [] ∨ l1 = [.boundary]) ∧ ∀ c ∈ l2, CTUnder R c := by
  unfold compileT
  split
  · obtain ⟨rest, tail, h, h1, h2⟩ := splitStages_first (.one true (.sanitize C)) post [] ((removingSpecs_iff _).1 hp) (by simp)
    have h' : splitStages [] (.one true (.sanitize C) :: post) = (.one true (.sanitize C) :: rest) :: tail := by rw [splitStages.eq_def]; exact h
    rw [h', List.flatMap_cons]
    refine ⟨[.boundary],
      ((flattenSpecs rest).flatMap fun p => lowerAll R [p]) ++ tail.flatMap fun st => CT.boundary :: (flattenSpecs st).flatMap fun p => lowerAll R [p], ?_, .inr rfl, ?_⟩
    · have : lowerAll R [(true, .sanitize C)] = [.sanitize C] := rfl
      simp [flattenSpecs, flattenSpec, this]
    · intro c hc
      rcases List.mem_append.1 hc with hc | hc
      · exact stageCTs_under R rest h1 c (List.mem_cons_of_mem _ hc)
      · obtain ⟨st, hst, hc⟩ := List.mem_flatMap.1 hc
        exact stageCTs_under R st (h2 st hst) c hc
  · refine ⟨[], lowerAll R (flattenSpecs post), ?_, .inl rfl, lowerAll_under R _ (flattenSpecs_removing _ hp)⟩
    simp only [flattenSpecs, flattenSpec, List.singleton_append]
    exact lowerAll_split R C [] _

/-- `Sanitize` first, then removing transforms: what is left was left by `Sanitize`. -/
theorem sanitize_first (R : TransEnv) (fuel : List Node → Nat) (hf : FullFuel fuel) (post : List TransSpec) (hp : RemovingSpecs post) (C : SanCfg) (kids : List Node) :
    Under (transform R fuel (.one true (.sanitize C) :: post) kids) (sanitizeKids R.S C kids) := by
  obtain ⟨l1, l2, h, h1, h2⟩ := compile_first R post C hp
  have e : runCT R fuel [] [] (l1 ++ [.sanitize C]) kids = sanitizeKids R.S C kids := by
    have : runCT R fuel [] [] [.sanitize C] kids = sanitizeKids R.S C kids := transform_sanitize R fuel hf C kids
    rcases h1 with rfl | rfl
    · exact this
    · rw [← this]
      simp only [List.cons_append, List.nil_append, runCT, runCT.finishWalk, runCT.finishPrune, List.isEmpty_nil, if_true, List.reverse_nil, runWalk]
  rw [transform, h, runCT_cut, e]
  exact runCT_under R fuel l2 [] [] _ h2 (by simp)

theorem sanitizeKids_named (S : SanEnv) (C : SanCfg) (kids : List Node) (hw : EverywhereL WellNamed kids) (m : Node) (hm : Reach m (sanitizeKids S C kids)) : WellNamed m := by
  rw [sanitizeKids_clean] at hm
  split at hm
  · rcases harden_reach hm _ rfl with ⟨d, rfl⟩ | ⟨m0, h0, hs⟩
    · intro a b c d e f he; simp at he
    · have := cleanL_named S C kids false false m0 hw h0
      intro a b c d e f he
      subst he
      cases m0 <;> simp [SameHead] at hs
      exact hs.1 ▸ this _ _ _ _ _ _ rfl
  · exact cleanL_named S C kids false false m hw hm

/-! ### Safe nodes -/

theorem sanitized_safe (S : SanEnv) (C : SanCfg) (hN : C.Normal S.E.U)
    (hguard : ∀ tag, urlRuleFor C.url tag c%"http-equiv" = none ∧ urlRuleFor C.url tag c%"name" = none) (pre : List Op) (fuel : Nat) (kids : List Node) (m : Node)
    (hm : Reach m (transformKids S C pre fuel kids)) (hw : WellNamed m) : SafeNode S.E C m := by
  have hr := kept_removed S C m (san_kept S C pre fuel kids m hm)
  cases m with
  | elem name ns as ks tpl content =>
    have hp := hw name ns as ks tpl content rfl
    obtain ⟨h1, as0, hpost⟩ := san_elem S C pre fuel kids name ns as ks tpl content hp hm
    refine ⟨decision_keep h1, ?_, ?_, ?_⟩
    · subst hpost; exact post_names S C hN name as0
    · intro k v hk hrel hst kind hkind
      exact post_urls S C hN hguard name as as0 hpost k v hk hrel hst kind (checkedAs_kind _ _ _ _ _ _ hkind)
    · intro v hk
      exact post_style S C hN name as as0 hpost v hk
  | comment d =>
    cases hd : C.dropComments with
    | true => exact absurd rfl ((hr.1 hd).1 d)
    | false => exact hd
  | pi d =>
    cases hd : C.dropComments with
    | true => exact absurd rfl ((hr.1 hd).2 d)
    | false => exact hd
  | doctype a b c =>
    cases hd : C.dropDoctype with
    | true => exact absurd rfl (hr.2 hd a b c)
    | false => exact hd
  | text d => trivial
  | doc k => trivial

theorem safe_same (E : UrlEnv) (C : SanCfg) {m0 m : Node} (hs : SameButContents m0 m) (h : SafeNode E C m0) : SafeNode E C m := by
  cases m0 <;> cases m <;> simp only [SameButContents] at hs
  · exact h
  · exact h
  · exact h
  · trivial
  · obtain ⟨rfl, rfl, rfl, rfl⟩ := hs; exact h

/-! ### The constructor -/

/-- C104: a text, or nothing, always gives a document or a fragment; so does a node that can be serialized. -/
theorem C104_total (R : TransEnv) (T : EntTables) (fuel : List Node → Nat) (a : Args) (src : Source) :
    (construct R T fuel a src).isSome = (sourceText R.S.E.U a src).isSome ∧ (∀ root, construct R T fuel a src = some root → ∃ kids, root = .doc kids) ∧
    (∀ s, (construct R T fuel a (.text s)).isSome = true) ∧ (construct R T fuel a .nothing).isSome = true := by
  have key : ∀ src, (construct R T fuel a src).isSome = (sourceText R.S.E.U a src).isSome ∧ (∀ root, construct R T fuel a src = some root → ∃ kids, root = .doc kids) := by
    intro src
    cases hc : a.compiled with
    | false =>
      rw [construct_raw R T fuel a src hc]
      cases sourceText R.S.E.U a src with
      | none => exact ⟨rfl, fun root h => by simp at h⟩
      | some html => exact ⟨rfl, fun root h => by simp only [Option.map_some, Option.some.injEq] at h; exact ⟨_, h.symm⟩⟩
    | true =>
      unfold construct
      cases sourceText R.S.E.U a src with
      | none => exact ⟨rfl, fun root h => by simp at h⟩
      | some html =>
        simp only [hc, if_true]
        refine ⟨rfl, fun root h => ?_⟩
        simp only [Option.some.injEq] at h
        obtain ⟨kids, hk⟩ := Eng.result_doc (Eng.safeCfg R.S.E T a.fragment html a.ctx a.ctxNs a.scripting)
        exact ⟨kids, by rw [← h]; exact hk⟩
  exact ⟨(key src).1, (key src).2, fun s => (key _).1.trans rfl, (key _).1.trans rfl⟩

/-- C104: `sanitize=False` without transforms gives the parse tree as it is. -/
theorem C104_unsanitized (R : TransEnv) (T : EntTables) (fuel : List Node → Nat) (a : Args) (s : Str) (h1 : a.sanitize = some false) (h2 : a.transforms = []) :
    construct R T fuel a (.text s) = some (Eng.result (Eng.rawCfg R.S.E T a.fragment s a.ctx a.ctxNs a.scripting)) := by
  have he : a.enabled = false := by simp [Args.enabled, h1]
  have hc : a.compiled = false := by simp [Args.compiled, he]
  have hs : a.specs = [] := by simp [Args.specs, he, h2, bindSpecs]
  rw [construct_raw R T fuel a _ hc, hs, parse_doc]
  simp [sourceText, transform_none]

/-- C104: `JustHTML(html, policy=P)` is `sanitize_dom` with that policy, applied to the tree of `JustHTML(html, sanitize=False)`. -/
theorem C104_two_steps (R : TransEnv) (T : EntTables) (fuel : List Node → Nat) (hf : FullFuel fuel) (a : Args) (P : SanCfg) (s : Str) :
    construct R T fuel { a with sanitize := some true, policy := some P, shared := false, transforms := [] } (.text s) =
      (construct R T fuel { a with sanitize := some false, transforms := [] } (.text s)).map (sanitizeRoot R.S P) := by
  rw [C104_unsanitized R T fuel { a with sanitize := some false, transforms := [] } s rfl rfl, construct_raw R T fuel _ _ (by simp [Args.compiled])]
  simp only [sourceText, Option.map_some]
  have hs : Args.specs { a with sanitize := some true, policy := some P, shared := false, transforms := [] } = [.one true (.sanitize P)] := rfl
  rw [hs, transform_sanitize R fuel hf]
  have := parse_doc R.S.E T a s
  rw [this]
  rfl

mutual
theorem noSan : ∀ s : UserSpec, NoSanitize s → s.hasSan = false
  | .one _ t, h => by cases t <;> first | rfl | exact absurd h (by simp [NoSanitize])
  | .sanitize _, h => absurd h (by simp [NoSanitize])
  | .stage e l, h => by
    rcases h with rfl | h
    · rfl
    · simp [UserSpec.hasSan, noSans l h]
theorem noSans : ∀ l : List UserSpec, NoSanitizes l → hasSans l = false
  | [], _ => rfl
  | s :: r, h => by simp [hasSans, noSan s h.1, noSans r h.2]
end

theorem specs_auto (a : Args) (hs : a.enabled = true) (hn : hasSans a.transforms = false) :
    a.specs = bindSpecs a.effective a.transforms ++ [.one true (.sanitize a.effective)] := by
  simp [Args.specs, hs, hn]

/-- C104: unless `sanitize=False`, and unless the transforms contain a `Sanitize`, with whatever other transforms, every node of the tree is as the
policy wants it. (Except in the compiled path — the default policy, no transforms: C75, C76, C79.) -/
theorem C104_policy (R : TransEnv) (T : EntTables) (fuel : List Node → Nat) (a : Args) (src : Source)
    (hpath : a.transforms ≠ [] ∨ (a.policy ≠ none ∧ a.shared = false)) (hon : a.sanitize ≠ some false) (hno : NoSanitizes a.transforms)
    (P : SanCfg) (hP : a.policy = some P ∨ (a.policy = none ∧ P = defaultCfg a.fragment)) (hN : P.Normal R.S.E.U)
    (hguard : ∀ tag, urlRuleFor P.url tag c%"http-equiv" = none ∧ urlRuleFor P.url tag c%"name" = none)
    (kids : List Node) (h : construct R T fuel a src = some (.doc kids)) (m : Node) (hm : Reach m kids) (hw : WellNamed m) : SafeNode R.S.E P m := by
  have he : a.effective = P := by
    rcases hP with h | ⟨h, rfl⟩ <;> simp [Args.effective, h]
  have hc : a.compiled = false := by
    rcases hpath with h | ⟨h, h'⟩
    · simp [Args.compiled, h]
    · cases hp : a.policy with
      | none => exact absurd hp h
      | some P => simp [Args.compiled, hp, h']
  have hs : a.enabled = true := by
    unfold Args.enabled
    cases e : a.sanitize with
    | none => rfl
    | some b =>
      cases b
      · exact absurd e hon
      · rfl
  have hn := noSans _ hno
  subst he
  rw [construct_raw R T fuel a src hc, specs_auto a hs hn] at h
  cases ht : sourceText R.S.E.U a src with
  | none => rw [ht] at h; simp at h
  | some html =>
    rw [ht] at h
    simp only [Option.map_some, Option.some.injEq, Node.doc.injEq] at h
    obtain ⟨pre, kids', e⟩ := pipeline_sanitized R fuel (bindSpecs a.effective a.transforms) a.effective (parseKids R.S.E T a html)
    rw [← h, e] at hm
    exact sanitized_safe R.S a.effective hN hguard pre _ kids' m hm hw

theorem parse_sanitized_safe (R : TransEnv) (T : EntTables) (fuel : List Node → Nat) (hf : FullFuel fuel) (a : Args) (html : Str) (hx : a.fragment = true → ProperName a.ctx)
    (C : SanCfg) (hN : C.Normal R.S.E.U) (hguard : ∀ tag, urlRuleFor C.url tag c%"http-equiv" = none ∧ urlRuleFor C.url tag c%"name" = none)
    (post : List TransSpec) (hp : RemovingSpecs post) (m : Node) (hm : Reach m (transform R fuel (.one true (.sanitize C) :: post) (parseKids R.S.E T a html))) :
    SafeNode R.S.E C m ∧ WellNamed m := by
  rcases sanitize_first R fuel hf post hp C _ m hm with ⟨d, rfl⟩ | ⟨m0, h0, hs⟩
  · exact ⟨trivial, fun a b c d e f he => by simp at he⟩
  · have hw := sanitizeKids_named R.S C _ (parse_named R.S.E T a html hx) m0 h0
    refine ⟨safe_same _ _ hs (sanitized_safe R.S C hN hguard [] _ _ m0 h0 hw), ?_⟩
    cases m0 <;> cases m <;> simp only [SameButContents] at hs <;> intro a b c d e f he <;> simp only [Node.elem.injEq, reduceCtorEq] at he
    obtain ⟨rfl, -⟩ := hs
    obtain ⟨rfl, -⟩ := he
    exact hw _ _ _ _ _ _ rfl

/-- C104: `JustHTML(html, policy=P)`: for every text and every policy, without further assumptions on the tree, every node of the result is as the policy
wants it. -/
theorem C104_custom (R : TransEnv) (T : EntTables) (fuel : List Node → Nat) (hf : FullFuel fuel) (a : Args) (src : Source) (hx : a.fragment = true → ProperName a.ctx)
    (hon : a.sanitize ≠ some false) (ht : a.transforms = []) (P : SanCfg) (hP : a.policy = some P) (hsh : a.shared = false) (hN : P.Normal R.S.E.U)
    (hguard : ∀ tag, urlRuleFor P.url tag c%"http-equiv" = none ∧ urlRuleFor P.url tag c%"name" = none)
    (kids : List Node) (h : construct R T fuel a src = some (.doc kids)) (m : Node) (hm : Reach m kids) : SafeNode R.S.E P m ∧ WellNamed m := by
  have he : a.effective = P := by simp [Args.effective, hP]
  have hs : a.enabled = true := by
    unfold Args.enabled
    cases e : a.sanitize with
    | none => rfl
    | some b =>
      cases b
      · exact absurd e hon
      · rfl
  rw [construct_raw R T fuel a src (by simp [Args.compiled, hP, hsh]), specs_auto a hs (by simp [ht, hasSans]), ht, he] at h
  cases hst : sourceText R.S.E.U a src with
  | none => rw [hst] at h; simp at h
  | some html =>
    rw [hst] at h
    simp only [Option.map_some, Option.some.injEq, Node.doc.injEq, bindSpecs, List.nil_append] at h
    subst h
    exact parse_sanitized_safe R T fuel hf a html hx P hN hguard [] trivial m hm

/-- C104: a `Sanitize` that is listed first, with a policy of its own or without (then it takes that of the call), followed by transforms that only
remove: every node of the result is as that policy wants it — even with `sanitize=False`. -/
theorem C104_listed (R : TransEnv) (T : EntTables) (fuel : List Node → Nat) (hf : FullFuel fuel) (a : Args) (src : Source) (hx : a.fragment = true → ProperName a.ctx)
    (s : UserSpec) (post : List UserSpec) (ht : a.transforms = s :: post) (Q : SanCfg) (hQ : s = .one true (.sanitize Q) ∨ (s = .sanitize true ∧ Q = a.policy.getD (defaultCfg a.fragment)))
    (hp : RemovingSpecs (bindSpecs a.effective post)) (hN : Q.Normal R.S.E.U)
    (hguard : ∀ tag, urlRuleFor Q.url tag c%"http-equiv" = none ∧ urlRuleFor Q.url tag c%"name" = none)
    (kids : List Node) (h : construct R T fuel a src = some (.doc kids)) (m : Node) (hm : Reach m kids) : SafeNode R.S.E Q m ∧ WellNamed m := by
  have hsp : a.specs = .one true (.sanitize Q) :: bindSpecs a.effective post := by
    have h1 : hasSans a.transforms = true := by
      rw [ht]
      rcases hQ with rfl | ⟨rfl, -⟩ <;> simp [hasSans, UserSpec.hasSan, Trans.isSanitize]
    have h2 : bindSpecs a.effective a.transforms = .one true (.sanitize Q) :: bindSpecs a.effective post := by
      rw [ht]
      rcases hQ with rfl | ⟨rfl, rfl⟩ <;> simp [bindSpecs, bindSpec, Args.effective]
    simp [Args.specs, h1, h2]
  rw [construct_raw R T fuel a src (by simp [Args.compiled, ht]), hsp] at h
  cases hst : sourceText R.S.E.U a src with
  | none => rw [hst] at h; simp at h
  | some html =>
    rw [hst] at h
    simp only [Option.map_some, Option.some.injEq, Node.doc.injEq] at h
    subst h
    exact parse_sanitized_safe R T fuel hf a html hx Q hN hguard _ hp m hm


/-! ### The default policies -/

theorem defaultCfg_normal (U : Uni) (fragment : Bool) : (defaultCfg fragment).Normal U := by
  have h : ∀ p ∈ (defaultCfg fragment).allowedAttrs, ∀ k ∈ p.2, k.all isAscii = true ∧ lowerA k = k := by
    cases fragment <;> decide +kernel
  refine ⟨fun p hp k hk => ?_, fun _ => ?_⟩
  · rw [U.lower_ascii k (h p hp k hk).1, (h p hp k hk).2]
  · cases fragment <;> decide +kernel

theorem defaultCfg_guard (fragment : Bool) (tag : Str) :
    urlRuleFor (defaultCfg fragment).url tag c%"http-equiv" = none ∧ urlRuleFor (defaultCfg fragment).url tag c%"name" = none := by
  have h : (defaultCfg fragment).url = Eng.defaultUrls := by cases fragment <;> rfl
  rw [h]
  unfold urlRuleFor Eng.defaultUrls
  have ne : ∀ (t u x y : Str), x ≠ y → ((t, x) == (u, y)) = false := fun t u x y h => beq_eq_false_iff_ne.2 (by simp [h])
  constructor
  · simp only [List.lookup, ne _ _ c%"http-equiv" c%"href" (by decide), ne _ _ c%"http-equiv" c%"src" (by decide)]
  · simp only [List.lookup, ne _ _ c%"name" c%"href" (by decide), ne _ _ c%"name" c%"src" (by decide)]


/-- Non-vacuity: a policy that allows `b` only, on a fragment. -/
example : (construct TransEnv.sample EntTables.sample (fun l => 2 * Node.sizeL l + 1)
    { fragment := true, policy := some { allowedTags := [c%"b"] } } (.text c%"<b onclick=f()>x<i>y</i><!--z--></b>")).map (fun r => match r with | .doc [.elem n _ as [.text x, .text y] _ _] => (n, as, x ++ y) | _ => ([], [], [])) =
    some (c%"b", [], c%"xy") := by
  decide +kernel

example : FullFuel fun l => 2 * Node.sizeL l + 1 := fun _ => Nat.lt_succ_self _

example (U : Uni) : ({ allowedTags := [c%"b"] } : SanCfg).Normal U := ⟨by simp, by simp⟩

end JH
