import Verif.Props.Sanitize
import Verif.Props.UrlList
/-! C25, C31: the attributes of sanitized elements. -/
namespace JH
open Spec

/-- The names of the policy are in the normal form that policy construction gives them (C54). -/
structure SanCfg.Normal (U : Uni) (C : SanCfg) : Prop where
  attrs : ∀ p ∈ C.allowedAttrs, ∀ k ∈ p.2, U.lower k = k
  /-- `style` may only be allowed together with CSS properties (sanitizer/policy.py:294-303) -/
  style : C.cssProps = [] → ∀ p ∈ C.allowedAttrs, c%"style" ∉ p.2

theorem mem_dictSet {k : Str} {v : Option Str} {d : Attrs} {q : Str × Option Str} (h : q ∈ dictSet k v d) :
    q = (k, v) ∨ (q ∈ d ∧ q.1 ≠ k) := by
  unfold dictSet at h
  split at h
  · obtain ⟨p, hp, e⟩ := List.mem_map.1 h
    split at e
    · exact .inl e.symm
    · rename_i hk; exact .inr ⟨e ▸ hp, e ▸ hk⟩
  · rename_i ha
    rcases List.mem_append.1 h with h | h
    · refine .inr ⟨h, fun e => ha ?_⟩
      rw [List.any_eq_true]; exact ⟨q, h, by simpa using e⟩
    · exact .inl (by simpa using h)

theorem lookup_mem {α β : Type} [BEq α] [LawfulBEq α] {l : List (α × β)} {k : α} {v : β} (h : l.lookup k = some v) : (k, v) ∈ l := by
  induction l with
  | nil => simp at h
  | cons p l ih =>
    obtain ⟨a, b⟩ := p
    rw [List.lookup_cons] at h
    by_cases hk : (k == a) = true
    · rw [hk] at h
      simp only [Option.some.injEq] at h
      have := eq_of_beq hk
      subst this; subst h; simp
    · simp only [Bool.not_eq_true] at hk
      rw [hk] at h
      exact List.mem_cons_of_mem _ (ih h)

theorem mem_effAttrs (C : SanCfg) {p : Str × List Str} {k : Str} (hp : p ∈ effAttrs C) (hk : k ∈ p.2) :
    (∃ q ∈ C.allowedAttrs, q.1 = p.1 ∧ k ∈ q.2) ∨ (p.1 = c%"a" ∧ k = c%"rel" ∧ C.forceRel ≠ []) := by
  unfold effAttrs at hp
  dsimp only at hp
  split at hp
  · exact .inl ⟨p, hp, rfl, hk⟩
  · rename_i hf
    have hne : C.forceRel ≠ [] := by
      intro e; rw [e] at hf; simp at hf
    split at hp
    · obtain ⟨q, hq, e⟩ := List.mem_map.1 hp
      split at e
      · rename_i ha
        subst e
        dsimp only at hk
        rcases List.mem_append.1 hk with hk | hk
        · exact .inl ⟨q, hq, rfl, hk⟩
        · exact .inr ⟨ha, by simpa using hk, hne⟩
      · subst e; exact .inl ⟨q, hq, rfl, hk⟩
    · rcases List.mem_append.1 hp with hp | hp
      · exact .inl ⟨p, hp, rfl, hk⟩
      · simp only [List.mem_singleton] at hp
        subst hp
        dsimp only at hk
        rcases List.mem_append.1 hk with hk | hk
        · cases hl : C.allowedAttrs.lookup c%"a" with
          | none => rw [hl] at hk; simp at hk
          | some s => rw [hl] at hk; exact .inl ⟨_, lookup_mem hl, rfl, hk⟩
        · exact .inr ⟨rfl, by simpa using hk, hne⟩

theorem mem_allowedFor (U : Uni) (attrs : List (Str × List Str)) (tag k : Str) (h : k ∈ allowedFor U attrs tag) :
    ∃ p ∈ attrs, (p.1 = c%"*" ∨ U.lower p.1 = U.lower tag) ∧ k ∈ p.2 := by
  have star : k ∈ (attrs.lookup c%"*").getD [] → ∃ p ∈ attrs, (p.1 = c%"*" ∨ U.lower p.1 = U.lower tag) ∧ k ∈ p.2 := by
    intro h
    cases hl : attrs.lookup c%"*" with
    | none => rw [hl] at h; simp at h
    | some s => rw [hl] at h; exact ⟨_, lookup_mem hl, .inl rfl, h⟩
  have byTag : ∀ t s, (allowedByTag U attrs).lookup t = some s → k ∈ s → U.lower t = U.lower tag →
      ∃ p ∈ attrs, (p.1 = c%"*" ∨ U.lower p.1 = U.lower tag) ∧ k ∈ p.2 := by
    intro t s hl hk ht
    have := lookup_mem hl
    unfold allowedByTag at this
    rw [List.mem_reverse] at this
    obtain ⟨q, hq, e⟩ := List.mem_map.1 this
    simp only [Prod.mk.injEq] at e
    rw [← e.2] at hk
    rcases List.mem_append.1 hk with hk | hk
    · exact star hk
    · exact ⟨q, (List.mem_filter.1 hq).1, .inr (by rw [← ht, ← e.1, U.lower_idem]), hk⟩
  unfold allowedFor at h
  split at h
  · rename_i s hs; exact byTag _ s hs h rfl
  · split at h
    · rename_i s hs; exact byTag _ s hs h (U.lower_idem tag)
    · exact star h

/-- The names the sanitizer may leave on an element are those the policy allows. -/
theorem allowedFor_allowed (U : Uni) (C : SanCfg) (name k : Str) (h : k ∈ allowedFor U (effAttrs C) name) :
    AttrAllowed U.lower C.allowedAttrs C.forceRel name k := by
  obtain ⟨p, hp, ht, hk⟩ := mem_allowedFor U _ _ _ h
  rcases mem_effAttrs C hp hk with ⟨q, hq, e, hkq⟩ | ⟨ha, hr, hf⟩
  · exact .inl ⟨q, hq, by rw [e]; exact ht, hkq⟩
  · rcases ht with ht | ht
    · rw [ha] at ht; exact absurd ht (by decide)
    · refine .inr ⟨hr, ?_, hf⟩
      rw [← ht, ha, U.lower_ascii _ (by decide)]; decide

theorem allowed_lower (U : Uni) (C : SanCfg) (hN : C.Normal U) (name k : Str) (h : AttrAllowed U.lower C.allowedAttrs C.forceRel name k) :
    U.lower k = k := by
  rcases h with ⟨p, hp, -, hk⟩ | ⟨rfl, -, -⟩
  · exact hN.attrs p hp k hk
  · rw [U.lower_ascii _ (by decide)]; decide

/-- transforms/compile.py:742-803: only allowed names are left. -/
theorem allowlist_keys (U : Uni) (attrs : List (Str × List Str)) (tag : Str) (as : Attrs) :
    ∀ q ∈ allowlistAttrs U attrs tag as, q.1 ∈ allowedFor U attrs tag := by
  unfold allowlistAttrs
  dsimp only
  split
  · rename_i h
    intro q hq
    rw [List.all_eq_true] at h
    have := h q hq
    simp only [Bool.and_eq_true, List.contains_eq_mem, decide_eq_true_eq] at this
    exact this.2
  · have : ∀ (as out : Attrs), (∀ q ∈ out, q.1 ∈ allowedFor U attrs tag) → ∀ q ∈ as.foldl (allowStep U (allowedFor U attrs tag)) out, q.1 ∈ allowedFor U attrs tag := by
      intro as
      induction as with
      | nil => intro out h; exact h
      | cons p as ih =>
        intro out h
        rw [List.foldl_cons]
        apply ih
        intro q hq
        unfold allowStep at hq
        split at hq
        · exact h q hq
        · split at hq
          · rename_i hc
            rcases mem_dictSet hq with rfl | h'
            · simpa using hc
            · exact h q h'.1
          · split at hq
            · rename_i hc
              rcases mem_dictSet hq with rfl | h'
              · simpa using hc
              · exact h q h'.1
            · exact h q hq
    exact this as [] (by simp)

/-- transforms/compile.py:819-911: every attribute left is an old one that needs no check, or has a checked value. -/
theorem dropUrl_mem (E : UrlEnv) (p : UrlPolicy) (name : Str) (as : Attrs) (q : Str × Option Str) (hq : q ∈ dropUrlAttrs E p name as) :
    (q ∈ as ∧ urlAct E p (E.U.lower name) as q.1 q.2 = .keep) ∨
    (q ∈ as ∧ E.U.lower q.1 = q.1 ∧ ∃ s, urlAct E p (E.U.lower name) as q.1 q.2 = .set s ∧ q.2 = some s) ∨
    ∃ a ∈ as, ∃ s, urlAct E p (E.U.lower name) as a.1 a.2 = .set s ∧ q = (E.U.lower a.1, some s) := by
  unfold dropUrlAttrs at hq
  dsimp only at hq
  have fold : ∀ (l out : Attrs), q ∈ l.foldl (fun out a => match urlAct E p (E.U.lower name) as a.1 a.2 with | .set s => dictSet (E.U.lower a.1) (some s) out | _ => out) out →
      (∃ a ∈ l, ∃ s, urlAct E p (E.U.lower name) as a.1 a.2 = .set s ∧ q = (E.U.lower a.1, some s)) ∨
      (q ∈ out ∧ ∀ a ∈ l, ∀ s, urlAct E p (E.U.lower name) as a.1 a.2 = .set s → E.U.lower a.1 ≠ q.1) := by
    intro l
    induction l with
    | nil => intro out h; exact .inr ⟨h, by simp⟩
    | cons a l ih =>
      intro out h
      rw [List.foldl_cons] at h
      rcases ih _ h with ⟨b, hb, s, h1, h2⟩ | ⟨h1, h2⟩
      · exact .inl ⟨b, by simp [hb], s, h1, h2⟩
      · cases ha : urlAct E p (E.U.lower name) as a.1 a.2 with
        | set s =>
          rw [ha] at h1
          dsimp only at h1
          rcases mem_dictSet h1 with rfl | ⟨h3, h4⟩
          · exact .inl ⟨a, by simp, s, ha, rfl⟩
          · refine .inr ⟨h3, ?_⟩
            intro b hb s' hs'
            rcases List.mem_cons.1 hb with rfl | hb
            · exact fun e => h4 e.symm
            · exact h2 b hb s' hs'
        | keep =>
          rw [ha] at h1
          refine .inr ⟨h1, ?_⟩
          intro b hb s' hs'
          rcases List.mem_cons.1 hb with rfl | hb
          · rw [ha] at hs'; simp at hs'
          · exact h2 b hb s' hs'
        | drop =>
          rw [ha] at h1
          refine .inr ⟨h1, ?_⟩
          intro b hb s' hs'
          rcases List.mem_cons.1 hb with rfl | hb
          · rw [ha] at hs'; simp at hs'
          · exact h2 b hb s' hs'
  rcases fold _ _ hq with h | ⟨h1, h2⟩
  · exact .inr (.inr h)
  · obtain ⟨hm, hk⟩ := List.mem_filter.1 h1
    cases ha : urlAct E p (E.U.lower name) as q.1 q.2 with
    | keep => exact .inl ⟨hm, rfl⟩
    | drop => rw [ha] at hk; simp at hk
    | set s =>
      rw [ha] at hk
      exact absurd (by simpa using hk) (h2 q hm s ha)

theorem style_mem (E : UrlEnv) (C : SanCfg) (name : Str) (as : Attrs) (q : Str × Option Str) (hq : q ∈ styleAttrs E C name as) :
    (q ∈ as ∧ (C.cssProps ≠ [] → (∀ a ∈ as, E.U.lower a.1 = a.1) → q.1 ≠ c%"style")) ∨
    (∃ v s, q = (c%"style", some s) ∧ sanitizeStyle E C.cssProps (some C.url) (E.U.lower name) v = some s ∧
      ∃ a ∈ as, E.U.lower a.1 = c%"style") := by
  have low : E.U.lower c%"style" = c%"style" := by rw [E.U.lower_ascii _ (by decide)]; decide
  unfold styleAttrs at hq
  split at hq
  · rename_i h
    exact .inl ⟨hq, fun hne => absurd (by simpa using h) hne⟩
  · split at hq
    · rename_i h
      refine .inl ⟨hq, fun _ _ e => ?_⟩
      rw [List.find?_eq_none] at h
      exact h q hq (by simp [e, low])
    · rename_i k v h
      have hk : E.U.lower k = c%"style" := by simpa using List.find?_some h
      have hm := List.mem_of_find?_eq_some h
      split at hq
      · obtain ⟨h1, h2⟩ := List.mem_filter.1 hq
        refine .inl ⟨h1, fun _ hl e => ?_⟩
        have : k = c%"style" := by have := hl _ hm; dsimp only at this; rw [← this, hk]
        rw [this] at h2
        simp [e] at h2
      · rename_i s hs
        rcases mem_dictSet hq with rfl | ⟨h1, h2⟩
        · cases v with
          | none => simp at hs
          | some v => exact .inr ⟨v, s, rfl, hs, _, hm, hk⟩
        · refine .inl ⟨?_, fun _ _ => h2⟩
          split at h1
          · exact h1
          · exact (List.mem_filter.1 h1).1

theorem merge_mem (U : Uni) (tokens : List Str) (name : Str) (as : Attrs) (q : Str × Option Str) (hq : q ∈ mergeRel U tokens name as) :
    (q ∈ as) ∨ (q.1 = c%"rel" ∧ U.lower name = c%"a") := by
  unfold mergeRel at hq
  split at hq
  · exact .inl hq
  · rename_i h
    dsimp only at hq
    split at hq
    · rcases mem_dictSet hq with rfl | ⟨h1, h2⟩
      · exact .inr ⟨rfl, by simpa using h⟩
      · exact .inl (List.mem_filter.1 h1).1
    · exact .inl hq

theorem urlAct_set (E : UrlEnv) (p : UrlPolicy) (tag : Str) (as : Attrs) (k : Str) (v : Option Str) (s : Str) (h : urlAct E p tag as k v = .set s) :
    ∃ rule kind u, v = some u ∧ urlRuleFor p tag (E.U.lower k) = some rule ∧
      (if isSinkAttr (E.U.lower k) then sinkKind E.U tag (E.U.lower k) as else some .url) = some kind ∧
      sinkValue E p rule tag (E.U.lower k) kind u = some s := by
  unfold urlAct at h
  dsimp only at h
  cases hs : isSinkAttr (E.U.lower k) with
  | false =>
    cases hr : urlRuleFor p tag (E.U.lower k) with
    | none => rw [hs, hr] at h; simp at h
    | some rule =>
      rw [hs, hr] at h
      simp only [Bool.false_eq_true, if_false] at h
      cases v with
      | none => simp at h
      | some u =>
        dsimp only at h
        cases hv : sinkValue E p rule tag (E.U.lower k) .url u with
        | none => rw [hv] at h; simp at h
        | some s' =>
          rw [hv] at h
          simp only [UrlAct.set.injEq] at h
          subst h
          exact ⟨rule, .url, u, rfl, rfl, rfl, hv⟩
  | true =>
    rw [hs] at h
    simp only [if_true] at h
    cases hk : sinkKind E.U tag (E.U.lower k) as with
    | none => rw [hk] at h; cases hr : urlRuleFor p tag (E.U.lower k) <;> rw [hr] at h <;> simp at h
    | some kind =>
      cases hr : urlRuleFor p tag (E.U.lower k) with
      | none => rw [hk, hr] at h; cases v <;> simp at h
      | some rule =>
        rw [hk, hr] at h
        cases v with
        | none => simp at h
        | some u =>
          dsimp only at h
          cases hv : sinkValue E p rule tag (E.U.lower k) kind u with
          | none => rw [hv] at h; simp at h
          | some s' =>
            rw [hv] at h
            simp only [UrlAct.set.injEq] at h
            subst h
            exact ⟨rule, kind, u, rfl, rfl, rfl, hv⟩

theorem urlAct_keep (E : UrlEnv) (p : UrlPolicy) (tag : Str) (as : Attrs) (k : Str) (v : Option Str) (h : urlAct E p tag as k v = .keep) :
    if isSinkAttr (E.U.lower k) then sinkKind E.U tag (E.U.lower k) as = none else urlRuleFor p tag (E.U.lower k) = none := by
  unfold urlAct at h
  dsimp only at h
  cases hs : isSinkAttr (E.U.lower k) with
  | false =>
    simp only [Bool.false_eq_true, if_false]
    cases hr : urlRuleFor p tag (E.U.lower k) with
    | none => rfl
    | some rule =>
      rw [hs, hr] at h
      simp only [Bool.false_eq_true, if_false] at h
      cases v with
      | none => simp at h
      | some u => dsimp only at h; split at h <;> simp at h
  | true =>
    simp only [if_true]
    rw [hs] at h
    simp only [if_true] at h
    cases hk : sinkKind E.U tag (E.U.lower k) as with
    | none => rfl
    | some kind =>
      rw [hk] at h
      cases hr : urlRuleFor p tag (E.U.lower k) with
      | none => rw [hr] at h; cases v <;> simp at h
      | some rule =>
        rw [hr] at h
        cases v with
        | none => simp at h
        | some u => dsimp only at h; split at h <;> simp at h

/-! ### Guards -/

/-- The attributes a guard looks at. -/
def guardAttrs (U : Uni) (g : Str) (as : Attrs) : Attrs := as.filter fun p => U.lower p.1 = g

theorem guard_filter (U : Uni) (g : Str × List Str) (as : Attrs) : guardHolds U g as = guardHolds U g (guardAttrs U g.1 as) := by
  induction as with
  | nil => rfl
  | cons p as ih =>
    obtain ⟨k, v⟩ := p
    by_cases h : U.lower k = g.1
    · rw [show guardAttrs U g.1 ((k, v) :: as) = (k, v) :: guardAttrs U g.1 as from by simp [guardAttrs, h]]
      cases v <;> simp [guardHolds, h, ih]
    · rw [show guardAttrs U g.1 ((k, v) :: as) = guardAttrs U g.1 as from by simp [guardAttrs, h], ← ih]
      cases v <;> simp [guardHolds, h]

theorem guard_dictSet (U : Uni) (g k : Str) (v : Option Str) (d : Attrs) (h : U.lower k ≠ g) : guardAttrs U g (dictSet k v d) = guardAttrs U g d := by
  have hm : ∀ d : Attrs, guardAttrs U g (d.map fun p => if p.1 = k then (k, v) else p) = guardAttrs U g d := by
    intro d
    induction d with
    | nil => rfl
    | cons p d ih =>
      unfold guardAttrs at ih ⊢
      rw [List.map_cons, List.filter_cons, List.filter_cons, ih]
      by_cases hp : p.1 = k
      · rw [if_pos hp]; simp [h, hp]
      · rw [if_neg hp]
  unfold dictSet
  split
  · exact hm d
  · simp [guardAttrs, h]

theorem guard_filter_keep (U : Uni) (g : Str) (f : Str × Option Str → Bool) (d : Attrs) (h : ∀ p ∈ d, U.lower p.1 = g → f p = true) :
    guardAttrs U g (d.filter f) = guardAttrs U g d := by
  unfold guardAttrs
  rw [List.filter_filter]
  apply List.filter_congr
  intro p hp
  by_cases hg : U.lower p.1 = g
  · simp [hg, h p hp hg]
  · simp [hg]

theorem find?_congr_mem {α : Type} {l : List α} {f g : α → Bool} (h : ∀ x ∈ l, f x = g x) : l.find? f = l.find? g := by
  induction l with
  | nil => rfl
  | cons a l ih =>
    rw [List.find?_cons, List.find?_cons, h a (by simp), ih fun x hx => h x (by simp [hx])]

theorem sinkKind_congr (U : Uni) (tag attr : Str) (as as' : Attrs)
    (h : ∀ g ∈ [c%"http-equiv", c%"name"], guardAttrs U g as = guardAttrs U g as') : sinkKind U tag attr as = sinkKind U tag attr as' := by
  have hg : ∀ s ∈ urlSinks, ∀ g, s.guard = some g → g.1 ∈ [c%"http-equiv", c%"name"] := by
    intro s hs g e
    have : urlSinks.all fun s => match s.guard with | some g => [c%"http-equiv", c%"name"].contains g.1 | none => true := by decide
    rw [List.all_eq_true] at this
    have := this s hs
    rw [e] at this
    simpa using this
  unfold sinkKind
  congr 1
  apply find?_congr_mem
  intro s hs
  cases e : s.guard with
  | none => rfl
  | some g => dsimp only; rw [guard_filter U g as, guard_filter U g as', h _ (hg s hs g e)]

theorem guard_dropUrl (E : UrlEnv) (p : UrlPolicy) (name g : Str) (as : Attrs) (hs : isSinkAttr g = false)
    (hr : urlRuleFor p (E.U.lower name) g = none) : guardAttrs E.U g (dropUrlAttrs E p name as) = guardAttrs E.U g as := by
  have hk : ∀ a : Str × Option Str, E.U.lower a.1 = g → urlAct E p (E.U.lower name) as a.1 a.2 = .keep := by
    intro a ha
    unfold urlAct
    dsimp only
    rw [ha, hs, hr]
  unfold dropUrlAttrs
  dsimp only
  have fold : ∀ (l out : Attrs), guardAttrs E.U g (l.foldl (fun out a => match urlAct E p (E.U.lower name) as a.1 a.2 with | .set s => dictSet (E.U.lower a.1) (some s) out | _ => out) out) =
      guardAttrs E.U g out := by
    intro l
    induction l with
    | nil => intro out; rfl
    | cons a l ih =>
      intro out
      rw [List.foldl_cons, ih]
      by_cases ha : E.U.lower a.1 = g
      · rw [hk a ha]
      · cases urlAct E p (E.U.lower name) as a.1 a.2 with
        | set s => exact guard_dictSet _ _ _ _ _ (by rw [E.U.lower_idem]; exact ha)
        | keep => rfl
        | drop => rfl
  refine (fold _ _).trans ?_
  apply guard_filter_keep
  intro q _ hq
  rw [hk q hq]

theorem guard_style (E : UrlEnv) (C : SanCfg) (name g : Str) (as : Attrs) (hg : g ≠ c%"style") :
    guardAttrs E.U g (styleAttrs E C name as) = guardAttrs E.U g as := by
  have low : E.U.lower c%"style" = c%"style" := by rw [E.U.lower_ascii _ (by decide)]; decide
  unfold styleAttrs
  split
  · rfl
  · split
    · rfl
    · rename_i k v h
      have hk : E.U.lower k = c%"style" := by simpa using List.find?_some h
      have hf : guardAttrs E.U g (as.filter fun p => p.1 ≠ k) = guardAttrs E.U g as := by
        apply guard_filter_keep
        intro p _ hp
        have : p.1 ≠ k := by rintro rfl; exact hg (hp ▸ hk)
        simpa using this
      split
      · exact hf
      · rw [guard_dictSet _ _ _ _ _ (by rw [low]; exact fun e => hg e.symm)]
        split
        · rfl
        · exact hf

theorem guard_merge (U : Uni) (tokens : List Str) (name g : Str) (as : Attrs) (hg : g ≠ c%"rel") :
    guardAttrs U g (mergeRel U tokens name as) = guardAttrs U g as := by
  have low : U.lower c%"rel" = c%"rel" := by rw [U.lower_ascii _ (by decide)]; decide
  unfold mergeRel
  split
  · rfl
  · dsimp only
    split
    · rw [guard_dictSet _ _ _ _ _ (by rw [low]; exact fun e => hg e.symm)]
      apply guard_filter_keep
      intro p _ hp
      have : U.lower p.1 ≠ c%"rel" := by rw [hp]; exact hg
      simp [this]
    · rfl

end JH
