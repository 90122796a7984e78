import Verif.Props.SanClean
/-! C27-C29: foreign content, dropped content, and the text that is left. -/
namespace JH
open Spec

/-- The elements removed with their content: neither allowed, and listed in `drop_content_tags` or under `drop` handling. -/
def Spec.droppedTag (U : Uni) (C : SanCfg) : Node → Bool
  | .elem name _ _ _ _ _ =>
    !C.allowedTags.contains (U.lower name) && (C.dropContent.contains (U.lower name) || C.handling = .drop)
  | _ => false

/-- No foreign element is directly inside an HTML element that is removed without its content. -/
def Spec.HoistOk (U : Uni) (C : SanCfg) (m : Node) : Prop :=
  ¬ Foreign U.lower m → Disallowed U.lower C.allowedTags m → droppedTag U C m = false → ∀ k ∈ contents m, ¬ Foreign U.lower k

theorem isForeign_iff (U : Uni) (name : Str) (ns : Option Str) (as : Attrs) (kids : List Node) (tpl : Bool) (content : List Node)
    (h : isSpecial (.elem name ns as kids tpl content) = false) :
    isForeign U (.elem name ns as kids tpl content) = true ↔ Foreign U.lower (.elem name ns as kids tpl content) := by
  simp only [isSpecial, nodeName, Bool.or_eq_false_iff] at h
  have h1 := of_decide_eq_false h.1
  have h2 := of_decide_eq_false h.2
  simp [isForeign, Foreign, isHtmlNs, h1, h2, or_comm]

theorem special_iff (name : Str) (ns : Option Str) (as : Attrs) (kids : List Node) (tpl : Bool) (content : List Node) :
    isSpecial (.elem name ns as kids tpl content) = false ↔ ProperName name := by
  simp only [isSpecial, nodeName, ProperName, Bool.or_eq_false_iff]
  exact ⟨fun h => ⟨of_decide_eq_false h.1, of_decide_eq_false h.2⟩, fun h => ⟨decide_eq_false h.1, decide_eq_false h.2⟩⟩

theorem decision_drop_iff (U : Uni) (C : SanCfg) (name : Str) (ns : Option Str) (as : Attrs) (kids : List Node) (tpl : Bool) (content : List Node) :
    decision U C name = .drop ↔ droppedTag U C (.elem name ns as kids tpl content) = true := by
  unfold decision droppedTag
  simp only
  generalize C.allowedTags.contains (U.lower name) = a
  generalize C.dropContent.contains (U.lower name) = b
  generalize C.handling = h
  cases a <;> cases b <;> cases h <;> decide

theorem decision_keep_iff (U : Uni) (C : SanCfg) (name : Str) (ns : Option Str) (as : Attrs) (kids : List Node) (tpl : Bool) (content : List Node) :
    decision U C name = .keep ↔ ¬ Disallowed U.lower C.allowedTags (.elem name ns as kids tpl content) := by
  unfold decision Disallowed
  cases h1 : C.allowedTags.contains (U.lower name)
  · have : U.lower name ∉ C.allowedTags := by simpa using h1
    cases h2 : C.dropContent.contains (U.lower name)
    · cases C.handling <;> simp [this]
    · simp [this]
  · have : U.lower name ∈ C.allowedTags := by simpa using h1
    simp [this]

/-! ### C27 -/

/-- The node is not a foreign element. -/
def NotForeignElem (U : Uni) (m : Node) : Prop :=
  ∀ name ns as kids tpl content, m = .elem name ns as kids tpl content → ProperName name → ¬ Foreign U.lower m

theorem reach_elem {m : Node} {name : Str} {ns : Option Str} {as : Attrs} {kids : List Node} {tpl : Bool} {content : List Node}
    (h : Reach m [.elem name ns as kids tpl content]) :
    m = .elem name ns as kids tpl content ∨ (name.head? ≠ some '#' ∧ (Reach m kids ∨ (tpl = true ∧ Reach m content))) := by
  cases h with
  | here h => exact .inl (by simpa using h)
  | kid h1 h2 h3 =>
    simp only [List.mem_singleton, Node.elem.injEq] at h1
    obtain ⟨rfl, -, -, rfl, -, -⟩ := h1
    exact .inr ⟨h2, .inl h3⟩
  | content h1 h2 h3 =>
    simp only [List.mem_singleton, Node.elem.injEq] at h1
    obtain ⟨rfl, -, -, -, rfl, rfl⟩ := h1
    exact .inr ⟨h2, .inr ⟨rfl, h3⟩⟩
  | doc h1 h2 => simp at h1

theorem reach_cutSeq {m : Node} {a b : List Node × Bool} (h : Reach m (cutSeq a b).1) : Reach m a.1 ∨ Reach m b.1 := by
  unfold cutSeq at h
  split at h
  · exact .inl h
  · exact Reach.append h

theorem reach_leaf {m n : Node} (hl : ∀ name ns as kids tpl content, n ≠ .elem name ns as kids tpl content) (hd : ∀ k, n ≠ .doc k)
    (h : Reach m [n]) : m = n := by
  cases h with
  | here h => simpa using h
  | kid h1 => exact absurd (List.mem_singleton.1 h1).symm (hl _ _ _ _ _ _)
  | content h1 => exact absurd (List.mem_singleton.1 h1).symm (hl _ _ _ _ _ _)
  | doc h1 => exact absurd (List.mem_singleton.1 h1).symm (hd _)

theorem reach_nil {m : Node} (h : Reach m []) : False := by cases h <;> simp_all

theorem not_elem (U : Uni) {m : Node} (hl : ∀ name ns as kids tpl content, m ≠ .elem name ns as kids tpl content) : NotForeignElem U m :=
  fun _ _ _ _ _ _ e _ => absurd e (hl _ _ _ _ _ _)

theorem cleanLeaf_nf (S : SanEnv) (C : SanCfg) (n m : Node) (hl : ∀ name ns as kids tpl content, n ≠ .elem name ns as kids tpl content)
    (hd : ∀ k, n ≠ .doc k) (h : Reach m (cleanLeaf S C n)) : NotForeignElem S.E.U m := by
  unfold cleanLeaf at h
  split at h
  · unfold commentRes at h
    split at h
    · split at h <;> (have := reach_leaf (by simp) (by simp) h; subst this; exact not_elem _ (by simp))
    · exact (reach_nil h).elim
  · split at h
    · exact (reach_nil h).elim
    · have hf : ∀ name ns as kids tpl content, finish S C n ≠ .elem name ns as kids tpl content := by
        intro a b c d e f
        cases n with
        | elem => exact absurd rfl (hl _ _ _ _ _ _)
        | doc => exact absurd rfl (hd _)
        | text => simp [finish]
        | _ => simp only [finish]; rw [if_pos (by simp [isSpecial, nodeName])]; simp
      have hf' : ∀ k, finish S C n ≠ .doc k := by
        intro k
        cases n with
        | elem => exact absurd rfl (hl _ _ _ _ _ _)
        | doc => exact absurd rfl (hd _)
        | text => simp [finish]
        | _ => simp only [finish]; rw [if_pos (by simp [isSpecial, nodeName])]; simp
      have := reach_leaf hf hf' h
      exact not_elem _ (by rw [this]; exact hf)

theorem tagText_nf (C : SanCfg) (U : Uni) (t : Option Str) (m : Node) (h : Reach m (tagText C t)) : NotForeignElem U m := by
  unfold tagText textNode? at h
  cases t with
  | none => simp at h; exact (reach_nil h).elim
  | some s =>
    by_cases hs : s.isEmpty = true
    · simp only [hs, if_true, List.map_nil] at h; exact (reach_nil h).elim
    · simp only [hs, List.map_cons, List.map_nil] at h
      have := reach_leaf (by simp) (by simp) h; subst this; exact not_elem _ (by simp)

mutual
theorem clean_nf (S : SanEnv) (C : SanCfg) : ∀ (n : Node) (hoist fc : Bool),
    (hoist = true → fc = false ∧ (isSpecial n = false → isForeign S.E.U n = false)) →
    (C.handling = .drop ∨ Everywhere (HoistOk S.E.U C) n) → ∀ m, Reach m (clean S C hoist fc n).1 → NotForeignElem S.E.U m
  | .elem name ns as kids tpl content, hoist, fc, hh, hH, m, hm => by
    have hHk : C.handling = .drop ∨ EverywhereL (HoistOk S.E.U C) kids := hH.imp id (fun h => by simp only [Everywhere] at h; exact h.2.1)
    have hHc : tpl = true → C.handling = .drop ∨ EverywhereL (HoistOk S.E.U C) content :=
      fun ht => hH.imp id (fun h => by simp only [Everywhere] at h; exact h.2.2 ht)
    have walked : ∀ fg as', (ProperName name → ¬ Foreign S.E.U.lower (.elem name ns as kids tpl content)) →
        Reach m [.elem name ns as' (cleanL S C false fg kids).1 tpl (if tpl then (cleanL S C false fg content).1 else content)] →
        NotForeignElem S.E.U m := by
      intro fg as' hnf hr
      rcases reach_elem hr with rfl | ⟨-, h | ⟨ht, h⟩⟩
      · intro a b c d e f he hp
        simp only [Node.elem.injEq] at he
        obtain ⟨rfl, -⟩ := he
        exact hnf hp
      · exact cleanL_nf S C kids false fg (by simp) hHk m h
      · rw [if_pos ht] at h
        exact cleanL_nf S C content false fg (by simp) (hHc ht) m h
    simp only [clean] at hm
    by_cases hs : isSpecial (.elem name ns as kids tpl content) = true
    · rw [if_pos hs] at hm
      have improper : ¬ ProperName name := fun hp => by
        rw [(special_iff name ns as kids tpl content).2 hp] at hs; simp at hs
      split at hm
      · unfold commentRes at hm
        simp only at hm
        split at hm
        · have := reach_leaf (by simp) (by simp) hm; subst this; exact not_elem _ (by simp)
        · exact (reach_nil hm).elim
      · split at hm
        · exact (reach_nil hm).elim
        · split at hm
          · rename_i hn
            have fin : ∀ K2 K3, Reach m [.elem name ns as K2 tpl K3] → NotForeignElem S.E.U m := by
              intro K2 K3 hr
              rcases reach_elem hr with rfl | ⟨h, -⟩
              · intro a b c d e f he hp
                simp only [Node.elem.injEq] at he
                obtain ⟨rfl, -⟩ := he
                exact absurd hp improper
              · exact absurd hn h
            split at hm
            · exact fin _ _ hm
            · exact fin _ _ hm
          · exact walked _ as (fun hp => absurd hp improper) hm
    · have hs' : isSpecial (.elem name ns as kids tpl content) = false := by simpa using hs
      rw [if_neg hs] at hm
      by_cases hf : (!hoist && (fc || isForeign S.E.U (.elem name ns as kids tpl content))) = true
      · rw [if_pos hf] at hm; exact (reach_nil hm).elim
      · rw [if_neg hf] at hm
        have hnf : fc = false ∧ isForeign S.E.U (.elem name ns as kids tpl content) = false := by
          cases hoist
          · simpa using hf
          · exact ⟨(hh rfl).1, (hh rfl).2 hs'⟩
        have hnF : ¬ Foreign S.E.U.lower (.elem name ns as kids tpl content) := by
          rw [← isForeign_iff _ _ _ _ _ _ _ hs', hnf.2]; simp
        have up : decision S.E.U C name ≠ .keep → decision S.E.U C name ≠ .drop →
            Reach m (cutSeq (cleanL S C true fc kids) (if tpl then cleanL S C true fc content else ([], false))).1 → NotForeignElem S.E.U m := by
          intro h1 h2 hr
          have hne : C.handling ≠ .drop := by
            intro he
            unfold decision at h1 h2
            rw [he] at h1 h2
            split at h1
            · exact h1 rfl
            · split at h2
              · simp_all
              · split at h2 <;> simp_all
          have hO : HoistOk S.E.U C (.elem name ns as kids tpl content) := by
            rcases hH with h | h
            · exact absurd h hne
            · simp only [Everywhere] at h; exact h.1
          have hk := hO hnF (by
            rw [Ne, decision_keep_iff S.E.U C name ns as kids tpl content, Classical.not_not] at h1; exact h1) (by
            rw [Ne, decision_drop_iff S.E.U C name ns as kids tpl content] at h2; simpa using h2)
          have hk' : ∀ k ∈ contents (.elem name ns as kids tpl content), isSpecial k = false → isForeign S.E.U k = false := by
            intro k hk1 hk2
            have := hk k hk1
            cases k with
            | elem => rw [← isForeign_iff _ _ _ _ _ _ _ hk2] at this; simpa using this
            | _ => simp [isForeign]
          rcases reach_cutSeq hr with h | h
          · exact cleanL_nf S C kids true fc (fun _ => ⟨hnf.1, fun k hk1 => hk' k (by cases tpl <;> simp [contents, hk1])⟩) hHk m h
          · cases tpl with
            | false => exact (reach_nil (by simpa using h)).elim
            | true => exact cleanL_nf S C content true fc (fun _ => ⟨hnf.1, fun k hk1 => hk' k (by simp [contents, hk1])⟩) (hHc rfl) m h
        generalize hd : decision S.E.U C name = d at hm up
        cases d with
        | keep => exact walked _ _ (fun _ => hnF) hm
        | drop => exact (reach_nil hm).elim
        | unwrap => exact up (by simp) (by simp) hm
        | escape =>
          rcases reach_cutSeq hm with h | h
          · exact tagText_nf C _ _ m h
          · rcases reach_cutSeq h with h | h
            · exact up (by simp) (by simp) h
            · exact tagText_nf C _ _ m h
  | .doc kids, hoist, fc, hh, hH, m, hm => by
    simp only [clean] at hm
    have hHk : C.handling = .drop ∨ EverywhereL (HoistOk S.E.U C) kids := hH.imp id (fun h => by simp only [Everywhere] at h; exact h.2)
    cases hm with
    | here h => have := List.mem_singleton.1 h; subst this; exact not_elem _ (by simp)
    | kid h => simp at h
    | content h => simp at h
    | doc h h' =>
      simp only [List.mem_singleton, Node.doc.injEq] at h
      subst h
      exact cleanL_nf S C kids false fc (by simp) hHk m h'
  | .text d, _, _, _, _, m, hm => by simp only [clean] at hm; exact cleanLeaf_nf S C _ m (by simp) (by simp) hm
  | .comment d, _, _, _, _, m, hm => by simp only [clean] at hm; exact cleanLeaf_nf S C _ m (by simp) (by simp) hm
  | .pi d, _, _, _, _, m, hm => by simp only [clean] at hm; exact cleanLeaf_nf S C _ m (by simp) (by simp) hm
  | .doctype a b c, _, _, _, _, m, hm => by simp only [clean] at hm; exact cleanLeaf_nf S C _ m (by simp) (by simp) hm
theorem cleanL_nf (S : SanEnv) (C : SanCfg) : ∀ (l : List Node) (hoist fc : Bool),
    (hoist = true → fc = false ∧ ∀ n ∈ l, isSpecial n = false → isForeign S.E.U n = false) →
    (C.handling = .drop ∨ EverywhereL (HoistOk S.E.U C) l) → ∀ m, Reach m (cleanL S C hoist fc l).1 → NotForeignElem S.E.U m
  | [], _, _, _, _, m, hm => by simp only [cleanL] at hm; exact (reach_nil hm).elim
  | n :: l, hoist, fc, hh, hH, m, hm => by
    simp only [cleanL] at hm
    rcases reach_cutSeq hm with h | h
    · exact clean_nf S C n hoist fc (fun e => ⟨(hh e).1, (hh e).2 n (by simp)⟩)
        (hH.imp id (fun h => by simp only [EverywhereL] at h; exact h.1)) m h
    · exact cleanL_nf S C l hoist fc (fun e => ⟨(hh e).1, fun x hx => (hh e).2 x (by simp [hx])⟩)
        (hH.imp id (fun h => by simp only [EverywhereL] at h; exact h.2)) m h
end

/-- The nodes a root stands for. -/
def rootKids : Node → List Node
  | .doc kids => kids
  | n => [n]

/-- A node of the sanitized root is the root itself, a text, or, up to its children, a node of the cleaned children. -/
theorem root_clean (S : SanEnv) (C : SanCfg) (root m : Node) (hm : Reach m [sanitizeRoot S C root]) :
    (∃ l, m = .doc l) ∨ (∃ d, m = .text d) ∨ ∃ m0, Reach m0 (cleanL S C false false (rootKids root)).1 ∧ SameHead m m0 := by
  have hdoc : ∀ l, Reach m [.doc l] → (∃ l, m = .doc l) ∨ Reach m l := by
    intro l h
    cases h with
    | here h => exact .inl ⟨l, by simpa using h⟩
    | kid h => simp at h
    | content h => simp at h
    | doc h h' => simp only [List.mem_singleton, Node.doc.injEq] at h; exact .inr (h ▸ h')
  have hkids : ∀ kids, Reach m (sanitizeKids S C kids) →
      (∃ d, m = .text d) ∨ ∃ m0, Reach m0 (cleanL S C false false kids).1 ∧ SameHead m m0 := by
    intro kids h
    rw [sanitizeKids_clean] at h
    split at h
    · exact harden_reach h _ rfl
    · exact .inr ⟨m, h, sameHead_refl m⟩
  have hwrap : ∀ n, Reach m [match sanitizeKids S C [n] with | [only] => only | l => .doc l] →
      (∃ l, m = .doc l) ∨ Reach m (sanitizeKids S C [n]) := by
    intro n h
    split at h
    · rename_i only e; exact .inr (e ▸ h)
    · exact hdoc _ h
  cases root with
  | doc kids => simp only [sanitizeRoot] at hm; exact (hdoc _ hm).imp_right fun h => hkids _ h
  | _ => exact (hwrap _ hm).imp_right fun h => hkids _ h

theorem everywhere_root {p : Node → Prop} {root : Node} (h : Everywhere p root) : EverywhereL p (rootKids root) := by
  cases root with
  | doc kids => simp only [Everywhere] at h; exact h.2
  | _ => exact ⟨h, trivial⟩

/-- C27: after sanitizing, no element is outside HTML: not in another namespace, and not named `svg` or `math`. Partial: under `unwrap` and
`escape` handling, for trees without a foreign element directly inside a removed element (`HoistOk`); otherwise the claim is false, see
`C27_unwrap_fails`. Under `drop` handling it holds for every tree. -/
theorem C27_no_foreign_partial (S : SanEnv) (C : SanCfg) (root : Node)
    (hH : C.handling = .drop ∨ Everywhere (HoistOk S.E.U C) root) (name : Str) (ns : Option Str) (as : Attrs)
    (kids : List Node) (tpl : Bool) (content : List Node) (hm : Reach (.elem name ns as kids tpl content) [sanitizeRoot S C root])
    (hp : ProperName name) : (ns = none ∨ ns = some c%"html") ∧ S.E.U.lower name ≠ c%"svg" ∧ S.E.U.lower name ≠ c%"math" := by
  rcases root_clean S C root _ hm with ⟨l, h⟩ | ⟨d, h⟩ | ⟨m0, h, hs⟩
  · simp at h
  · simp at h
  · have := cleanL_nf S C (rootKids root) false false (by simp) (hH.imp id everywhere_root) m0 h
    cases m0 with
    | elem name' ns' as' kids' tpl' content' =>
      obtain ⟨rfl, rfl, -, -⟩ := hs
      have hn := this _ _ _ _ _ _ rfl hp
      simp only [Foreign, not_or, not_and, Classical.not_not] at hn
      refine ⟨?_, hn.2⟩
      by_cases h1 : ns = none
      · exact .inl h1
      · exact .inr (hn.1 h1)
    | _ => simp [SameHead] at hs

/-- A concrete environment for examples. -/
def SanEnv.sample : SanEnv where
  E := UrlEnv.sample
  startText := fun n => match n with | .elem name _ _ _ _ _ => some (c%"<" ++ name ++ c%">") | _ => none
  endText := fun n => match n with | .elem name _ _ _ _ _ => some (c%"</" ++ name ++ c%">") | _ => none
  unclosed := fun _ => false

/-- C27 fails (F7): with the default `unwrap` handling, an SVG `a` element inside a disallowed element survives: `<x><svg:a>`, allowed tags `a`. -/
theorem C27_unwrap_fails :
    ¬ ∀ (S : SanEnv) (C : SanCfg) (root : Node) (name : Str) (ns : Option Str) (as : Attrs) (kids : List Node) (tpl : Bool)
      (content : List Node), Reach (.elem name ns as kids tpl content) [sanitizeRoot S C root] → ProperName name →
      (ns = none ∨ ns = some c%"html") := by
  intro h
  have := h SanEnv.sample { allowedTags := [c%"a"] }
    (.doc [.elem c%"x" none [] [.elem c%"a" (some c%"svg") [] [] false []] false []]) c%"a" (some c%"svg") [] [] false []
    (.doc (List.mem_singleton.2 rfl) (.here (List.mem_singleton.2 rfl))) (by unfold ProperName; decide)
  revert this; decide

/-- Non-vacuity of C27: a tree with foreign content that satisfies the hypothesis under `unwrap`. -/
example : Everywhere (HoistOk Uni.sample { allowedTags := [c%"p"] })
    (.doc [.elem c%"x" none [] [.elem c%"p" none [] [.elem c%"svg" (some c%"svg") [] [.text c%"t"] false []] false []] false []]) := by
  refine ⟨fun _ h => absurd h (by simp [Disallowed]), ⟨⟨?_, ⟨⟨?_, ⟨⟨?_, ⟨?_, trivial⟩, by simp⟩, trivial⟩, by simp⟩, trivial⟩, by simp⟩, trivial⟩⟩
  · intro _ _ _ k hk
    have := List.mem_singleton.1 hk; subst this
    simp [Foreign]; decide
  · intro _ h; exact absurd h (by simp [Disallowed]; decide)
  · intro h; exact absurd (Or.inl (by decide)) h
  · intro _ h; exact absurd h (by simp [Disallowed])

/-! ### C28 -/

/-- The text of an element's tags is read from the source, not from the element's children. -/
def SanEnv.TagsFromSource (S : SanEnv) : Prop :=
  ∀ name ns as kids kids' tpl content content', S.startText (.elem name ns as kids tpl content) = S.startText (.elem name ns as kids' tpl content') ∧
    S.endText (.elem name ns as kids tpl content) = S.endText (.elem name ns as kids' tpl content')

/-- Elements treated by other rules: foreign elements (C27), and elements with reserved names. -/
def Spec.exempt (U : Uni) (n : Node) : Bool := isForeign U n || isSpecial n

/-- `clean` of an ordinary HTML element. -/
theorem clean_plain (S : SanEnv) (C : SanCfg) (hoist : Bool) (name : Str) (ns : Option Str) (as : Attrs) (kids : List Node) (tpl : Bool)
    (content : List Node) (hF : isForeign S.E.U (.elem name ns as kids tpl content) = false)
    (hP : isSpecial (.elem name ns as kids tpl content) = false) :
    clean S C hoist false (.elem name ns as kids tpl content) =
      match decision S.E.U C name with
      | .keep =>
        ([.elem name ns (postAttrs S C name as) (cleanL S C false false kids).1 tpl
          (if tpl then (cleanL S C false false content).1 else content)], false)
      | .drop => ([], false)
      | .unwrap => cutSeq (cleanL S C true false kids) (if tpl then cleanL S C true false content else ([], false))
      | .escape =>
        cutSeq (tagText C (S.startText (.elem name ns as kids tpl content)), false)
          (cutSeq (cutSeq (cleanL S C true false kids) (if tpl then cleanL S C true false content else ([], false)))
            (tagText C (S.endText (.elem name ns as kids tpl content)), false)) := by
  simp only [clean]
  rw [if_neg (by simp [hP]), if_neg (by simp [hF]), hF]
  rfl

theorem cleanL_ifTpl (S : SanEnv) (C : SanCfg) (h fc tpl : Bool) (a b : List Node) (hab : tpl = true → cleanL S C h fc a = cleanL S C h fc b) :
    (if tpl then cleanL S C h fc a else ([], false)) = (if tpl then cleanL S C h fc b else ([], false)) := by
  cases tpl
  · rfl
  · exact hab rfl

mutual
theorem clean_hollow (S : SanEnv) (C : SanCfg) (hS : S.TagsFromSource) : ∀ (n : Node) (hoist : Bool),
    clean S C hoist false (hollow (exempt S.E.U) (droppedTag S.E.U C) n) = clean S C hoist false n
  | .elem name ns as kids tpl content, hoist => by
    unfold hollow
    by_cases he : exempt S.E.U (.elem name ns as kids tpl content) = true
    · rw [if_pos he]
    · rw [if_neg he]
      have he' : isForeign S.E.U (.elem name ns as kids tpl content) = false ∧ isSpecial (.elem name ns as kids tpl content) = false := by
        simpa [exempt] using he
      have hF : ∀ as' kids' content', isForeign S.E.U (.elem name ns as' kids' tpl content') = false := fun _ _ _ => he'.1
      have hP : ∀ as' kids' content', isSpecial (.elem name ns as' kids' tpl content') = false := fun _ _ _ => he'.2
      by_cases hg : droppedTag S.E.U C (.elem name ns as kids tpl content) = true
      · rw [if_pos hg]
        have hd := (decision_drop_iff S.E.U C name ns as kids tpl content).2 hg
        simp only [clean, hF, hP, hd]
        simp
      · rw [if_neg hg]
        have hk := cleanL_hollow S C hS kids
        have hc : tpl = true → ∀ h, cleanL S C h false (if tpl then hollowL (exempt S.E.U) (droppedTag S.E.U C) content else content) =
            cleanL S C h false content := by
          intro ht h; rw [if_pos ht]; exact cleanL_hollow S C hS content h
        have hc' : ∀ h, (if tpl then cleanL S C h false (if tpl then hollowL (exempt S.E.U) (droppedTag S.E.U C) content else content)
              else (([], false) : List Node × Bool)) = (if tpl then cleanL S C h false content else ([], false)) :=
          fun h => cleanL_ifTpl S C h false tpl _ _ fun ht => hc ht h
        have hc'' : (if tpl then (cleanL S C false false (if tpl then hollowL (exempt S.E.U) (droppedTag S.E.U C) content else content)).1
              else (if tpl then hollowL (exempt S.E.U) (droppedTag S.E.U C) content else content)) =
            (if tpl then (cleanL S C false false content).1 else content) := by
          cases tpl
          · rfl
          · simp only [if_true] at hc ⊢; rw [hc trivial]
        rw [clean_plain S C hoist _ _ _ _ _ _ (hF _ _ _) (hP _ _ _), clean_plain S C hoist _ _ _ _ _ _ (hF _ _ _) (hP _ _ _)]
        simp only [hk, hc', hc'']
        rw [(hS name ns as _ kids tpl _ content).1, (hS name ns as _ kids tpl _ content).2]
  | .doc kids, hoist => by
    simp only [hollow, clean, cleanL_hollow S C hS kids]
  | .text _, _ => by simp only [hollow]
  | .comment _, _ => by simp only [hollow]
  | .pi _, _ => by simp only [hollow]
  | .doctype _ _ _, _ => by simp only [hollow]
theorem cleanL_hollow (S : SanEnv) (C : SanCfg) (hS : S.TagsFromSource) : ∀ (l : List Node) (hoist : Bool),
    cleanL S C hoist false (hollowL (exempt S.E.U) (droppedTag S.E.U C) l) = cleanL S C hoist false l
  | [], _ => by simp only [hollowL]
  | n :: l, hoist => by simp only [hollowL, cleanL, clean_hollow S C hS n hoist, cleanL_hollow S C hS l hoist]
end

theorem sanitizeKids_hollow (S : SanEnv) (C : SanCfg) (hS : S.TagsFromSource) (l : List Node) :
    sanitizeKids S C (hollowL (exempt S.E.U) (droppedTag S.E.U C) l) = sanitizeKids S C l := by
  rw [sanitizeKids_clean, sanitizeKids_clean, cleanL_hollow S C hS]

/-- C28: what is inside a disallowed element listed in `drop_content_tags` (or any disallowed element, under `drop` handling), at any depth,
has no effect on the result: emptying all these elements before sanitizing gives the same tree. -/
theorem C28_dropped_content_gone (S : SanEnv) (C : SanCfg) (hS : S.TagsFromSource) (root : Node) :
    sanitizeRoot S C (hollow (exempt S.E.U) (droppedTag S.E.U C) root) = sanitizeRoot S C root := by
  have key : ∀ n, sanitizeKids S C [hollow (exempt S.E.U) (droppedTag S.E.U C) n] = sanitizeKids S C [n] :=
    fun n => by have := sanitizeKids_hollow S C hS [n]; simpa [hollowL] using this
  cases root with
  | doc kids => simp only [hollow, sanitizeRoot, sanitizeKids_hollow S C hS]
  | elem name ns as kids tpl content =>
    have h := key (.elem name ns as kids tpl content)
    have he : ∃ as' kids' content', hollow (exempt S.E.U) (droppedTag S.E.U C) (.elem name ns as kids tpl content) =
        .elem name ns as' kids' tpl content' := by
      unfold hollow
      split
      · exact ⟨_, _, _, rfl⟩
      · split
        · exact ⟨_, _, _, rfl⟩
        · exact ⟨_, _, _, rfl⟩
    obtain ⟨as', kids', content', he⟩ := he
    rw [he] at h ⊢
    simp only [sanitizeRoot, h]
  | _ => simp only [hollow]

/-- C28, the element itself: a disallowed element to be dropped leaves nothing at all. -/
theorem C28_dropped_element_gone (S : SanEnv) (C : SanCfg) (name : Str) (ns : Option Str) (as : Attrs) (kids : List Node) (tpl : Bool)
    (content before after : List Node) (hp : ProperName name) (hg : droppedTag S.E.U C (.elem name ns as kids tpl content) = true)
    (hf : ¬ Foreign S.E.U.lower (.elem name ns as kids tpl content)) :
    sanitizeKids S C (before ++ .elem name ns as kids tpl content :: after) = sanitizeKids S C (before ++ after) := by
  have hs := (special_iff name ns as kids tpl content).2 hp
  have hd := (decision_drop_iff S.E.U C name ns as kids tpl content).2 hg
  have hF : isForeign S.E.U (.elem name ns as kids tpl content) = false := by
    rw [← isForeign_iff _ _ _ _ _ _ _ hs] at hf; simpa using hf
  have h0 : clean S C false false (.elem name ns as kids tpl content) = ([], false) := by
    simp only [clean, hs, hF, hd]; rfl
  rw [sanitizeKids_clean, sanitizeKids_clean, cleanL_append, cleanL_append, cleanL, h0, nil_cutSeq]

/-- Non-vacuity of C28: text below a nested dropped `script`, inside an unwrapped element, is gone. -/
example : SanEnv.sample.TagsFromSource ∧
    hollow (exempt Uni.sample) (droppedTag Uni.sample { allowedTags := [c%"p"], dropContent := [c%"script"] })
      (.doc [.elem c%"x" none [] [.elem c%"script" none [] [.text c%"alert(1)"] false [], .text c%"t"] false []]) =
      .doc [.elem c%"x" none [] [.elem c%"script" none [] [] false [], .text c%"t"] false []] :=
  ⟨fun _ _ _ _ _ _ _ _ => ⟨rfl, rfl⟩, rfl⟩

end JH
