import Verif.Props.SanText
import Verif.Props.SanRel
/-! C59: what the policy allows is kept. C31: existing link relations are kept. -/
namespace JH
open Spec

/-- `Visible U C m l`: the node `m` occurs in `l` below documents and HTML elements that are kept or removed without their content
(and that are not `script` or `style`, whose element children are removed as a whole). -/
inductive Spec.Visible (U : Uni) (C : SanCfg) (m : Node) : List Node → Prop
  | here {l} : m ∈ l → Visible U C m l
  | kid {l name ns as kids tpl content} : Node.elem name ns as kids tpl content ∈ l → ProperName name →
      ¬ Foreign U.lower (.elem name ns as kids tpl content) → droppedTag U C (.elem name ns as kids tpl content) = false →
      U.lower name ≠ c%"script" ∧ U.lower name ≠ c%"style" → Visible U C m kids → Visible U C m l
  | content {l name ns as kids content} : Node.elem name ns as kids true content ∈ l → ProperName name →
      ¬ Foreign U.lower (.elem name ns as kids true content) → droppedTag U C (.elem name ns as kids true content) = false →
      U.lower name ≠ c%"script" ∧ U.lower name ≠ c%"style" → Visible U C m content → Visible U C m l
  | doc {l kids} : Node.doc kids ∈ l → Visible U C m kids → Visible U C m l

theorem cutSeq_flag {a b : List Node × Bool} (ha : a.2 = false) (hb : b.2 = false) : (cutSeq a b).2 = false := by
  unfold cutSeq; rw [ha]; simpa using hb

theorem cutSeq_fst {a b : List Node × Bool} (ha : a.2 = false) : (cutSeq a b).1 = a.1 ++ b.1 := by
  unfold cutSeq; rw [ha]; rfl

mutual
/-- Without unclosed foreign scripts and styles nothing is cut off. -/
theorem clean_flag (S : SanEnv) (C : SanCfg) : ∀ (n : Node) (hoist fc : Bool), Everywhere (fun m => S.unclosed m = false) n →
    (clean S C hoist fc n).2 = false
  | .elem name ns as kids tpl content, hoist, fc, hE => by
    simp only [Everywhere] at hE
    have hc : (if tpl then cleanL S C true fc content else (([], false) : List Node × Bool)).2 = false := by
      by_cases ht : tpl = true
      · rw [if_pos ht]; exact cleanL_flag S C content true fc (hE.2.2 ht)
      · rw [if_neg ht]
    have hk := cutSeq_flag (cleanL_flag S C kids true fc hE.2.1) hc
    simp only [clean]
    split
    · split
      · rfl
      · split
        · rfl
        · split
          · split <;> rfl
          · rfl
    · split
      · exact hE.1
      · split
        · rfl
        · rfl
        · exact hk
        · exact cutSeq_flag rfl (cutSeq_flag hk rfl)
  | .doc kids, _, _, _ => by simp only [clean]
  | .text d, _, _, _ => by simp only [clean]
  | .comment d, _, _, _ => by simp only [clean]
  | .pi d, _, _, _ => by simp only [clean]
  | .doctype _ _ _, _, _, _ => by simp only [clean]
theorem cleanL_flag (S : SanEnv) (C : SanCfg) : ∀ (l : List Node) (hoist fc : Bool), EverywhereL (fun m => S.unclosed m = false) l →
    (cleanL S C hoist fc l).2 = false
  | [], _, _, _ => by simp only [cleanL]
  | n :: l, hoist, fc, hE => by
    simp only [EverywhereL] at hE
    simp only [cleanL]
    exact cutSeq_flag (clean_flag S C n hoist fc hE.1) (cleanL_flag S C l hoist fc hE.2)
end

theorem everywhereL_mem {p : Node → Prop} {l : List Node} (h : EverywhereL p l) : ∀ n ∈ l, Everywhere p n := by
  induction l with
  | nil => simp
  | cons a l ih =>
    intro n hn
    simp only [EverywhereL] at h
    rcases List.mem_cons.1 hn with rfl | hn
    · exact h.1
    · exact ih h.2 n hn

theorem cleanL_mem (S : SanEnv) (C : SanCfg) (hoist fc : Bool) : ∀ (l : List Node), EverywhereL (fun m => S.unclosed m = false) l →
    ∀ n ∈ l, ∀ x ∈ (clean S C hoist fc n).1, x ∈ (cleanL S C hoist fc l).1 := by
  intro l
  induction l with
  | nil => simp
  | cons a l ih =>
    intro hE n hn x hx
    simp only [EverywhereL] at hE
    rw [cleanL, cutSeq_fst (clean_flag S C a hoist fc hE.1)]
    rcases List.mem_cons.1 hn with rfl | hn
    · exact List.mem_append_left _ hx
    · exact List.mem_append_right _ (ih hE.2 n hn x hx)

/-- The hardening pass, when there is one. -/
def hardenOpt (U : Uni) (b : Bool) (l : List Node) : List Node := if b then hardenL U l else l

theorem mem_hardenOpt {U : Uni} {b : Bool} {x : Node} : ∀ {l : List Node}, x ∈ l → (if b then harden U x else x) ∈ hardenOpt U b l := by
  intro l
  cases b with
  | false => exact fun h => h
  | true =>
    induction l with
    | nil => simp
    | cons a l ih =>
      intro h
      simp only [hardenOpt, if_true, hardenL] at ih ⊢
      rcases List.mem_cons.1 h with rfl | h
      · simp
      · exact List.mem_cons_of_mem _ (ih h)

/-- What becomes of a kept element. -/
theorem clean_kept (S : SanEnv) (C : SanCfg) (hoist : Bool) (name : Str) (ns : Option Str) (as : Attrs) (kids : List Node) (tpl : Bool)
    (content : List Node) (hp : ProperName name) (hf : ¬ Foreign S.E.U.lower (.elem name ns as kids tpl content))
    (ha : S.E.U.lower name ∈ C.allowedTags) :
    clean S C hoist false (.elem name ns as kids tpl content) =
      ([.elem name ns (postAttrs S C name as) (cleanL S C false false kids).1 tpl
          (if tpl then (cleanL S C false false content).1 else content)], false) := by
  have hs := (special_iff name ns as kids tpl content).2 hp
  have hF : isForeign S.E.U (.elem name ns as kids tpl content) = false := by
    rw [← isForeign_iff _ _ _ _ _ _ _ hs] at hf; simpa using hf
  rw [clean_plain S C hoist _ _ _ _ _ _ hF hs, (decision_keep_iff S.E.U C name ns as kids tpl content).2 (by simpa [Disallowed] using ha)]

theorem visible_clean (S : SanEnv) (C : SanCfg) (b : Bool) (name : Str) (ns : Option Str) (as : Attrs) (kids : List Node) (tpl : Bool)
    (content : List Node) (hp : ProperName name) (hf : ¬ Foreign S.E.U.lower (.elem name ns as kids tpl content))
    (ha : S.E.U.lower name ∈ C.allowedTags) {l : List Node} (h : Visible S.E.U C (.elem name ns as kids tpl content) l) :
    EverywhereL (fun m => S.unclosed m = false) l → ∀ hoist, ∃ kids' content',
      Reach (.elem name ns (postAttrs S C name as) kids' tpl content') (hardenOpt S.E.U b (cleanL S C hoist false l).1) := by
  induction h with
  | here hm =>
    intro hE hoist
    have h1 := cleanL_mem S C hoist false _ hE _ hm _ (by rw [clean_kept S C hoist _ _ _ _ _ _ hp hf ha]; exact List.mem_singleton.2 rfl)
    have h2 := mem_hardenOpt (U := S.E.U) (b := b) h1
    cases b with
    | false => exact ⟨_, _, .here h2⟩
    | true =>
      simp only [if_true, harden] at h2
      split at h2
      · exact ⟨_, _, .here h2⟩
      · exact ⟨_, _, .here h2⟩
  | @kid l nm ns1 as1 kids1 tpl1 content1 hm hp1 hf1 hg1 hr1 hv ih =>
    intro hE hoist
    have hE1 := everywhereL_mem hE _ hm
    simp only [Everywhere] at hE1
    have hs := (special_iff nm ns1 as1 kids1 tpl1 content1).2 hp1
    have hF : isForeign S.E.U (.elem nm ns1 as1 kids1 tpl1 content1) = false := by
      rw [← isForeign_iff _ _ _ _ _ _ _ hs] at hf1; simpa using hf1
    have hpl := clean_plain S C hoist nm ns1 as1 kids1 tpl1 content1 hF hs
    have hraw : rawtextElements.contains (S.E.U.lower nm) = false := by simp [rawtextElements, hr1.1, hr1.2]
    have hsub : (∀ x ∈ (cleanL S C true false kids1).1, x ∈ (clean S C hoist false (.elem nm ns1 as1 kids1 tpl1 content1)).1) →
        ∃ kids' content', Reach (.elem name ns (postAttrs S C name as) kids' tpl content') (hardenOpt S.E.U b (cleanL S C hoist false l).1) := by
      intro hx
      obtain ⟨k', c', hr⟩ := ih hE1.2.1 true
      refine ⟨k', c', hr.mono ?_⟩
      intro x hx'
      cases b with
      | false => exact cleanL_mem S C hoist false _ hE _ hm _ (hx x hx')
      | true =>
        obtain ⟨x0, h0, rfl⟩ := mem_hardenL hx'
        exact mem_hardenOpt (U := S.E.U) (b := true) (cleanL_mem S C hoist false _ hE _ hm _ (hx x0 h0))
    have hdd : decision S.E.U C nm ≠ .drop := fun h => by
      rw [(decision_drop_iff S.E.U C nm ns1 as1 kids1 tpl1 content1).1 h] at hg1; simp at hg1
    have hfl := cleanL_flag S C kids1 true false hE1.2.1
    generalize hd : decision S.E.U C nm = d at hpl hdd
    cases d with
    | drop => exact absurd rfl hdd
    | keep =>
      obtain ⟨k', c', hr⟩ := ih hE1.2.1 false
      have h1 := cleanL_mem S C hoist false _ hE _ hm _ (by rw [hpl]; exact List.mem_singleton.2 rfl)
      have h2 := mem_hardenOpt (U := S.E.U) (b := b) h1
      refine ⟨k', c', ?_⟩
      cases b with
      | false => exact .kid h2 hp1.1 hr
      | true =>
        simp only [if_true, harden, hraw] at h2
        exact .kid h2 hp1.1 hr
    | unwrap =>
      apply hsub
      intro x hx
      rw [hpl]
      simp only [cutSeq_fst hfl]
      exact List.mem_append_left _ hx
    | escape =>
      apply hsub
      intro x hx
      rw [hpl]
      rw [cutSeq_fst rfl]
      refine List.mem_append_right _ ?_
      rw [cutSeq_assoc, cutSeq_fst hfl]
      exact List.mem_append_left _ hx
  | @content l nm ns1 as1 kids1 content1 hm hp1 hf1 hg1 hr1 hv ih =>
    intro hE hoist
    have hE1 := everywhereL_mem hE _ hm
    simp only [Everywhere] at hE1
    have hs := (special_iff nm ns1 as1 kids1 true content1).2 hp1
    have hF : isForeign S.E.U (.elem nm ns1 as1 kids1 true content1) = false := by
      rw [← isForeign_iff _ _ _ _ _ _ _ hs] at hf1; simpa using hf1
    have hpl := clean_plain S C hoist nm ns1 as1 kids1 true content1 hF hs
    have hraw : rawtextElements.contains (S.E.U.lower nm) = false := by simp [rawtextElements, hr1.1, hr1.2]
    have hsub : (∀ x ∈ (cleanL S C true false content1).1, x ∈ (clean S C hoist false (.elem nm ns1 as1 kids1 true content1)).1) →
        ∃ kids' content', Reach (.elem name ns (postAttrs S C name as) kids' tpl content') (hardenOpt S.E.U b (cleanL S C hoist false l).1) := by
      intro hx
      obtain ⟨k', c', hr⟩ := ih (hE1.2.2 trivial) true
      refine ⟨k', c', hr.mono ?_⟩
      intro x hx'
      cases b with
      | false => exact cleanL_mem S C hoist false _ hE _ hm _ (hx x hx')
      | true =>
        obtain ⟨x0, h0, rfl⟩ := mem_hardenL hx'
        exact mem_hardenOpt (U := S.E.U) (b := true) (cleanL_mem S C hoist false _ hE _ hm _ (hx x0 h0))
    have hdd : decision S.E.U C nm ≠ .drop := fun h => by
      rw [(decision_drop_iff S.E.U C nm ns1 as1 kids1 true content1).1 h] at hg1; simp at hg1
    have hfl := cleanL_flag S C kids1 true false hE1.2.1
    generalize hd : decision S.E.U C nm = d at hpl hdd
    cases d with
    | drop => exact absurd rfl hdd
    | keep =>
      obtain ⟨k', c', hr⟩ := ih (hE1.2.2 trivial) false
      have h1 := cleanL_mem S C hoist false _ hE _ hm _ (by rw [hpl]; exact List.mem_singleton.2 rfl)
      have h2 := mem_hardenOpt (U := S.E.U) (b := b) h1
      refine ⟨k', c', ?_⟩
      cases b with
      | false => exact .content h2 hp1.1 hr
      | true =>
        simp only [if_true, harden, hraw] at h2
        exact .content h2 hp1.1 hr
    | unwrap =>
      apply hsub
      intro x hx
      rw [hpl]
      simp only [if_true, cutSeq_fst hfl]
      exact List.mem_append_right _ hx
    | escape =>
      apply hsub
      intro x hx
      rw [hpl]
      rw [cutSeq_fst rfl]
      refine List.mem_append_right _ ?_
      rw [cutSeq_assoc, cutSeq_fst hfl]
      refine List.mem_append_right _ ?_
      simp only [if_true]
      rw [cutSeq_fst (cleanL_flag S C content1 true false (hE1.2.2 trivial))]
      exact List.mem_append_left _ hx
  | @doc l kids1 hm hv ih =>
    intro hE hoist
    have hE1 := everywhereL_mem hE _ hm
    simp only [Everywhere] at hE1
    obtain ⟨k', c', hr⟩ := ih hE1.2 false
    have h1 := cleanL_mem S C hoist false _ hE _ hm (.doc (cleanL S C false false kids1).1) (by simp only [clean]; exact List.mem_singleton.2 rfl)
    have h2 := mem_hardenOpt (U := S.E.U) (b := b) h1
    refine ⟨k', c', ?_⟩
    cases b with
    | false => exact .doc h2 hr
    | true =>
      simp only [if_true, harden] at h2
      exact .doc h2 hr

/-! ### Attributes -/

theorem mem_dictSet_ne {k : Str} {v : Option Str} {d : Attrs} {q : Str × Option Str} (h : q ∈ d) (hk : q.1 ≠ k) : q ∈ dictSet k v d := by
  unfold dictSet
  split
  · exact List.mem_map.2 ⟨q, h, by rw [if_neg hk]⟩
  · exact List.mem_append_left _ h

theorem mem_dictSet_self (k : Str) (v : Option Str) (d : Attrs) : (k, v) ∈ dictSet k v d := by
  unfold dictSet
  split
  · rename_i h
    rw [List.any_eq_true] at h
    obtain ⟨p, hp, e⟩ := h
    exact List.mem_map.2 ⟨p, hp, by rw [if_pos (by simpa using e)]⟩
  · exact List.mem_append_right _ (by simp)

theorem lookup_of_mem {α β : Type} [BEq α] [LawfulBEq α] {l : List (α × β)} {k : α} {v : β} (hn : (l.map Prod.fst).Nodup) (h : (k, v) ∈ l) :
    l.lookup k = some v := by
  induction l with
  | nil => simp at h
  | cons a l ih =>
    obtain ⟨a1, a2⟩ := a
    rw [List.map_cons, List.nodup_cons] at hn
    rcases List.mem_cons.1 h with e | h
    · simp only [Prod.mk.injEq] at e
      rw [List.lookup, e.1, e.2]; simp
    · have : (k == a1) = false := by
        rw [beq_eq_false_iff_ne]
        intro e
        exact hn.1 (List.mem_map.2 ⟨(k, v), h, e⟩)
      rw [List.lookup, this]; exact ih hn.2 h

/-- The keys of the policy's attribute table: distinct and in lower case (C54). -/
structure SanCfg.Keyed (U : Uni) (attrs : List (Str × List Str)) : Prop where
  low : ∀ p ∈ attrs, U.lower p.1 = p.1
  nodup : (attrs.map Prod.fst).Nodup

theorem allowedFor_complete (U : Uni) (attrs : List (Str × List Str)) (hK : SanCfg.Keyed U attrs) (name k : Str) (p : Str × List Str) (hp : p ∈ attrs)
    (hn : p.1 = c%"*" ∨ p.1 = U.lower name) (hk : k ∈ p.2) : k ∈ allowedFor U attrs name := by
  have star : p.1 = c%"*" → k ∈ (attrs.lookup c%"*").getD [] := by
    intro e
    have : (c%"*", p.2) ∈ attrs := by rw [← e]; exact hp
    rw [lookup_of_mem hK.nodup this]; exact hk
  have hmem : ∀ t s, (t, s) ∈ allowedByTag U attrs → ∃ q ∈ attrs, q.1 = t ∧ q.1 ≠ c%"*" ∧ s = (attrs.lookup c%"*").getD [] ++ q.2 := by
    intro t s h
    unfold allowedByTag at h
    rw [List.mem_reverse] at h
    obtain ⟨q, hq, e⟩ := List.mem_map.1 h
    obtain ⟨hq, hs⟩ := List.mem_filter.1 hq
    simp only [Prod.mk.injEq] at e
    refine ⟨q, hq, ?_, by simpa using hs, e.2.symm⟩
    rw [← e.1, hK.low q hq]
  have huniq : ∀ q ∈ attrs, q.1 = p.1 → q = p := by
    intro q hq e
    have h1 := lookup_of_mem hK.nodup hq
    have h2 := lookup_of_mem hK.nodup hp
    rw [e, h2] at h1
    simp only [Option.some.injEq] at h1
    exact Prod.ext e h1.symm
  have found : ∀ t s, (allowedByTag U attrs).lookup t = some s → U.lower t = U.lower name → k ∈ s := by
    intro t s h ht
    obtain ⟨q, hq, h1, h2, rfl⟩ := hmem t s (lookup_mem h)
    by_cases hs : p.1 = c%"*"
    · exact List.mem_append_left _ (star hs)
    · have hpn := hn.resolve_left hs
      have : q = p := huniq q hq (by rw [hpn, ← ht, ← h1, hK.low q hq])
      rw [this]; exact List.mem_append_right _ hk
  unfold allowedFor
  split
  · rename_i s h; exact found _ s h rfl
  · split
    · rename_i s h; exact found _ s h (U.lower_idem _)
    · rename_i h
      by_cases hs : p.1 = c%"*"
      · exact star hs
      · exfalso
        have hpn := hn.resolve_left hs
        have hin : (p.1, (attrs.lookup c%"*").getD [] ++ p.2) ∈ allowedByTag U attrs := by
          unfold allowedByTag
          rw [List.mem_reverse]
          exact List.mem_map.2 ⟨p, List.mem_filter.2 ⟨hp, by simpa using hs⟩, by rw [hK.low p hp]⟩
        rw [List.lookup_eq_none_iff] at h
        have := h _ hin
        rw [hpn] at this
        simp at this

theorem effAttrs_keyed (U : Uni) (C : SanCfg) (hK : SanCfg.Keyed U C.allowedAttrs) : SanCfg.Keyed U (effAttrs C) := by
  have la : U.lower c%"a" = c%"a" := by rw [U.lower_ascii _ (by decide)]; decide
  unfold effAttrs
  dsimp only
  split
  · exact hK
  · split
    · refine ⟨?_, ?_⟩
      · intro p hp
        obtain ⟨q, hq, rfl⟩ := List.mem_map.1 hp
        have := hK.low q hq
        split <;> exact this
      · have : (C.allowedAttrs.map fun p => if p.1 = c%"a" then (p.1, p.2 ++ [c%"rel"]) else p).map Prod.fst = C.allowedAttrs.map Prod.fst := by
          rw [List.map_map]
          apply List.map_congr_left
          intro q _
          simp only [Function.comp]
          split <;> rfl
        rw [this]; exact hK.nodup
    · rename_i h
      refine ⟨?_, ?_⟩
      · intro p hp
        rcases List.mem_append.1 hp with hp | hp
        · exact hK.low p hp
        · have := List.mem_singleton.1 hp; subst this; exact la
      · rw [List.map_append, List.nodup_append]
        refine ⟨hK.nodup, by simp, ?_⟩
        intro x hx y hy
        simp only [List.map_cons, List.map_nil, List.mem_singleton] at hy
        subst hy
        intro e
        apply h
        obtain ⟨p, hp, e2⟩ := List.mem_map.1 hx
        rw [List.any_eq_true]
        exact ⟨p, hp, by simp [e2, e]⟩

theorem effAttrs_super (C : SanCfg) (p : Str × List Str) (hp : p ∈ C.allowedAttrs) (k : Str) (hk : k ∈ p.2) :
    ∃ q ∈ effAttrs C, q.1 = p.1 ∧ k ∈ q.2 := by
  unfold effAttrs
  dsimp only
  split
  · exact ⟨p, hp, rfl, hk⟩
  · split
    · refine ⟨_, List.mem_map.2 ⟨p, hp, rfl⟩, ?_⟩
      split
      · exact ⟨rfl, List.mem_append_left _ hk⟩
      · exact ⟨rfl, hk⟩
    · exact ⟨p, List.mem_append_left _ hp, rfl, hk⟩

/-- `rel` is allowed on links when it is forced. -/
theorem effAttrs_rel (C : SanCfg) (hne : C.forceRel ≠ []) : ∃ q ∈ effAttrs C, (q.1 = c%"*" ∨ q.1 = c%"a") ∧ c%"rel" ∈ q.2 := by
  unfold effAttrs
  dsimp only
  have he : C.forceRel.isEmpty = false := by simpa using hne
  have look : ∀ t, ((C.allowedAttrs.lookup t).getD []).contains c%"rel" = true → ∃ q ∈ C.allowedAttrs, q.1 = t ∧ c%"rel" ∈ q.2 := by
    intro t h
    cases hl : C.allowedAttrs.lookup t with
    | none => rw [hl] at h; simp at h
    | some s => rw [hl] at h; exact ⟨_, lookup_mem hl, rfl, by simpa using h⟩
  split
  · rename_i h
    rw [he, Bool.false_or, Bool.or_eq_true] at h
    rcases h with h | h
    · obtain ⟨q, h1, h2, h3⟩ := look _ h; exact ⟨q, h1, .inr h2, h3⟩
    · obtain ⟨q, h1, h2, h3⟩ := look _ h; exact ⟨q, h1, .inl h2, h3⟩
  · split
    · rename_i h
      rw [List.any_eq_true] at h
      obtain ⟨p, hp, e⟩ := h
      have e' : p.1 = c%"a" := by simpa using e
      refine ⟨_, List.mem_map.2 ⟨p, hp, rfl⟩, ?_⟩
      rw [if_pos e']
      exact ⟨.inr e', by simp⟩
    · exact ⟨_, List.mem_append_right _ (List.mem_singleton.2 rfl), .inr rfl, by simp⟩

theorem allowlist_complete (U : Uni) (attrs : List (Str × List Str)) (tag : Str) (as : Attrs) (k : Str) (v : Option Str) (h : (k, v) ∈ as)
    (hn : (as.map Prod.fst).Nodup) (hl : ∀ q ∈ as, U.lower q.1 = q.1) (hb : stripP U.isSpace k ≠ []) (ha : k ∈ allowedFor U attrs tag) :
    (k, v) ∈ allowlistAttrs U attrs tag as := by
  unfold allowlistAttrs
  dsimp only
  split
  · exact h
  · have done : ∀ (as out : Attrs), (∀ q ∈ as, q.1 ≠ k) → (∀ q ∈ as, U.lower q.1 = q.1) → (k, v) ∈ out →
        (k, v) ∈ as.foldl (allowStep U (allowedFor U attrs tag)) out := by
      intro as
      induction as with
      | nil => intro out _ _ h; exact h
      | cons p as ih =>
        intro out h1 h2 h
        rw [List.foldl_cons]
        apply ih _ (fun q hq => h1 q (by simp [hq])) (fun q hq => h2 q (by simp [hq]))
        have hk := h1 p (by simp)
        unfold allowStep
        split
        · exact h
        · split
          · exact mem_dictSet_ne h (fun e => hk e.symm)
          · split
            · rw [h2 p (by simp)]; exact mem_dictSet_ne h (fun e => hk e.symm)
            · exact h
    have go : ∀ (as out : Attrs), (as.map Prod.fst).Nodup → (∀ q ∈ as, U.lower q.1 = q.1) → (k, v) ∈ as →
        (k, v) ∈ as.foldl (allowStep U (allowedFor U attrs tag)) out := by
      intro as
      induction as with
      | nil => intro out _ _ h; simp at h
      | cons p as ih =>
        intro out h1 h2 h
        rw [List.map_cons, List.nodup_cons] at h1
        rw [List.foldl_cons]
        rcases List.mem_cons.1 h with e | h
        · subst e
          apply done _ _ _ (fun q hq => h2 q (by simp [hq]))
          · unfold allowStep
            rw [if_neg (by simpa using hb), if_pos (by simpa using ha)]
            exact mem_dictSet_self _ _ _
          · intro q hq e
            exact h1.1 (List.mem_map.2 ⟨q, hq, e⟩)
        · exact ih _ h1.2 (fun q hq => h2 q (by simp [hq])) h
    exact go as [] hn hl h

theorem allowlist_lower (U : Uni) (C : SanCfg) (hN : C.Normal U) (name : Str) (as : Attrs) :
    ∀ q ∈ allowlistAttrs U (effAttrs C) name as, U.lower q.1 = q.1 :=
  fun q hq => allowed_lower U C hN name q.1 (allowedFor_allowed _ _ _ _ (allowlist_keys U _ name as q hq))

theorem dropUrl_keeps (E : UrlEnv) (p : UrlPolicy) (name : Str) (as : Attrs) (k : Str) (v : Option Str) (h : (k, v) ∈ as)
    (hl : ∀ q ∈ as, E.U.lower q.1 = q.1) (hs : isSinkAttr k = false) (hr : urlRuleFor p (E.U.lower name) k = none) :
    (k, v) ∈ dropUrlAttrs E p name as := by
  have hk : ∀ w, urlAct E p (E.U.lower name) as k w = .keep := by
    intro w
    unfold urlAct
    dsimp only
    have := hl _ h
    dsimp only at this
    rw [this, hs, hr]
  unfold dropUrlAttrs
  dsimp only
  have fold : ∀ (l out : Attrs), (∀ q ∈ l, E.U.lower q.1 = q.1) → (k, v) ∈ out →
      (k, v) ∈ l.foldl (fun out a => match urlAct E p (E.U.lower name) as a.1 a.2 with | .set s => dictSet (E.U.lower a.1) (some s) out | _ => out) out := by
    intro l
    induction l with
    | nil => intro out _ h; exact h
    | cons a l ih =>
      intro out h1 h
      rw [List.foldl_cons]
      apply ih _ (fun q hq => h1 q (by simp [hq]))
      cases ha : urlAct E p (E.U.lower name) as a.1 a.2 with
      | keep => exact h
      | drop => exact h
      | set s =>
        dsimp only
        apply mem_dictSet_ne h
        rw [h1 a (by simp)]
        rintro e
        rw [← e, hk] at ha; simp at ha
  apply fold _ _ hl
  refine List.mem_filter.2 ⟨h, ?_⟩
  rw [hk]

theorem style_keeps (E : UrlEnv) (C : SanCfg) (name : Str) (as : Attrs) (q : Str × Option Str) (h : q ∈ as) (hk : E.U.lower q.1 ≠ c%"style") :
    q ∈ styleAttrs E C name as := by
  have low : E.U.lower c%"style" = c%"style" := by rw [E.U.lower_ascii _ (by decide)]; decide
  have hk' : q.1 ≠ c%"style" := fun e => hk (by rw [e, low])
  unfold styleAttrs
  split
  · exact h
  · split
    · exact h
    · rename_i k v hf
      have hks : E.U.lower k = c%"style" := by simpa using List.find?_some hf
      have hne : q.1 ≠ k := fun e => hk (by rw [e, hks])
      split
      · exact List.mem_filter.2 ⟨h, by simpa using hne⟩
      · apply mem_dictSet_ne _ hk'
        split
        · exact h
        · exact List.mem_filter.2 ⟨h, by simpa using hne⟩

theorem merge_keeps (U : Uni) (tokens : List Str) (name : Str) (as : Attrs) (q : Str × Option Str) (h : q ∈ as) (hk : U.lower q.1 ≠ c%"rel") :
    q ∈ mergeRel U tokens name as := by
  have low : U.lower c%"rel" = c%"rel" := by rw [U.lower_ascii _ (by decide)]; decide
  unfold mergeRel
  split
  · exact h
  · dsimp only
    split
    · apply mem_dictSet_ne _ (fun e => hk (by rw [e, low]))
      exact List.mem_filter.2 ⟨h, by simp [hk]⟩
    · exact h

/-- An attribute after the invisible characters are stripped. -/
def Spec.stripVal (C : SanCfg) (v : Option Str) : Option Str := if C.stripInv then v.map stripInvisible else v

theorem sanAttrs_keeps (S : SanEnv) (C : SanCfg) (hN : C.Normal S.E.U) (name : Str) (as : Attrs) (k : Str) (v : Option Str)
    (h : (k, v) ∈ as) (hn : (as.map Prod.fst).Nodup) (hl : ∀ q ∈ as, S.E.U.lower q.1 = q.1) (hb : stripP S.E.U.isSpace k ≠ [])
    (ha : k ∈ allowedFor S.E.U (effAttrs C) name) (hs : isSinkAttr k = false) (hr : urlRuleFor C.url (S.E.U.lower name) k = none) (hst : k ≠ c%"style") :
    (k, stripVal C v) ∈ sanAttrs S C name (if C.stripInv then stripAttrs as else as) := by
  have h1 : (k, stripVal C v) ∈ (if C.stripInv then stripAttrs as else as) := by
    unfold stripVal
    split
    · exact List.mem_map.2 ⟨_, h, rfl⟩
    · exact h
  have h2 : ((if C.stripInv then stripAttrs as else as).map Prod.fst) = as.map Prod.fst := by
    split
    · simp [stripAttrs, List.map_map, Function.comp_def]
    · rfl
  have h3 : ∀ q ∈ (if C.stripInv then stripAttrs as else as), S.E.U.lower q.1 = q.1 := by
    intro q hq
    have : q.1 ∈ as.map Prod.fst := by rw [← h2]; exact List.mem_map.2 ⟨q, hq, rfl⟩
    obtain ⟨p, hp, e⟩ := List.mem_map.1 this
    rw [← e]; exact hl p hp
  have hlk : S.E.U.lower k = k := hl _ h
  unfold sanAttrs
  apply style_keeps
  · apply dropUrl_keeps _ _ _ _ _ _ _ (allowlist_lower S.E.U C hN name _) hs hr
    exact allowlist_complete _ _ _ _ _ _ h1 (by rw [h2]; exact hn) h3 hb ha
  · dsimp only; rw [hlk]; exact hst

/-- An allowed element that is visible is in the result. -/
theorem visible_kept (S : SanEnv) (C : SanCfg) (root : Node) (hE : Everywhere (fun m => S.unclosed m = false) root)
    (name : Str) (ns : Option Str) (as : Attrs) (kids : List Node) (tpl : Bool) (content : List Node)
    (hv : Visible S.E.U C (.elem name ns as kids tpl content) [root]) (hp : ProperName name)
    (hf : ¬ Foreign S.E.U.lower (.elem name ns as kids tpl content)) (ha : S.E.U.lower name ∈ C.allowedTags) :
    ∃ kids' content', Reach (.elem name ns (postAttrs S C name as) kids' tpl content') [sanitizeRoot S C root] := by
  have hkids : ∀ l, EverywhereL (fun m => S.unclosed m = false) l → Visible S.E.U C (.elem name ns as kids tpl content) l →
      ∃ kids' content', Reach (.elem name ns (postAttrs S C name as) kids' tpl content') (sanitizeKids S C l) := by
    intro l hl hv
    rw [sanitizeKids_clean]
    exact visible_clean S C (C.allowedTags.any rawtextElements.contains) name ns as kids tpl content hp hf ha hv hl false
  have hwrap : ∀ n, Everywhere (fun m => S.unclosed m = false) n → Visible S.E.U C (.elem name ns as kids tpl content) [n] →
      ∃ kids' content', Reach (.elem name ns (postAttrs S C name as) kids' tpl content')
        [match sanitizeKids S C [n] with | [only] => only | l => .doc l] := by
    intro n hn hv
    obtain ⟨k', c', hr⟩ := hkids [n] ⟨hn, trivial⟩ hv
    refine ⟨k', c', ?_⟩
    split
    · rename_i only e; rw [e] at hr; exact hr
    · exact .doc (List.mem_singleton.2 rfl) hr
  cases root with
  | doc kids0 =>
    cases hv with
    | here h => simp at h
    | kid h => simp at h
    | content h => simp at h
    | doc h hv =>
      simp only [List.mem_singleton, Node.doc.injEq] at h
      subst h
      obtain ⟨k', c', hr⟩ := hkids _ hE.2 hv
      exact ⟨k', c', .doc (List.mem_singleton.2 rfl) hr⟩
  | _ => exact hwrap _ hE hv

/-- C59: an HTML element with an allowed name, below elements that are kept or unwrapped, is in the result, with the same name and
namespace; and each attribute the policy allows for it survives unchanged (up to invisible characters) unless it is a URL sink or has a URL
rule, or is `style`, or the `rel` of a link that the policy forces. For elements as the parser makes them (attribute names distinct and in
lower case), normalized policies (C54), and sources without foreign `script` or `style` whose end tag was not recorded (`openForeign`, F74). -/
theorem C59_allowed_kept_partial (S : SanEnv) (C : SanCfg) (hN : C.Normal S.E.U) (hK : SanCfg.Keyed S.E.U C.allowedAttrs) (root : Node)
    (hE : Everywhere (fun m => S.unclosed m = false) root)
    (name : Str) (ns : Option Str) (as : Attrs) (kids : List Node) (tpl : Bool) (content : List Node)
    (hv : Visible S.E.U C (.elem name ns as kids tpl content) [root]) (hp : ProperName name)
    (hf : ¬ Foreign S.E.U.lower (.elem name ns as kids tpl content)) (ha : S.E.U.lower name ∈ C.allowedTags)
    (hn : (as.map Prod.fst).Nodup) (hl : ∀ q ∈ as, S.E.U.lower q.1 = q.1) :
    ∃ as' kids' content', Reach (.elem name ns as' kids' tpl content') [sanitizeRoot S C root] ∧
      ∀ k v, (k, v) ∈ as → stripP S.E.U.isSpace k ≠ [] → (∃ p ∈ C.allowedAttrs, (p.1 = c%"*" ∨ p.1 = S.E.U.lower name) ∧ k ∈ p.2) →
        isSinkAttr k = false → urlRuleFor C.url (S.E.U.lower name) k = none → k ≠ c%"style" → k ≠ c%"rel" →
        (k, stripVal C v) ∈ as' := by
  obtain ⟨k', c', hr⟩ := visible_kept S C root hE name ns as kids tpl content hv hp hf ha
  refine ⟨_, k', c', hr, ?_⟩
  intro k v hkv hb ⟨p, hp1, hp2, hp3⟩ hs hru hst hre
  obtain ⟨q, hq1, hq2, hq3⟩ := effAttrs_super C p hp1 k hp3
  have hal := allowedFor_complete S.E.U (effAttrs C) (effAttrs_keyed _ _ hK) name k q hq1 (by rw [hq2]; exact hp2) hq3
  have h1 := sanAttrs_keeps S C hN name as k v hkv hn hl hb hal hs hru hst
  unfold postAttrs
  dsimp only
  split
  · exact h1
  · apply merge_keeps _ _ _ _ _ h1
    have : S.E.U.lower k = k := hl _ hkv
    dsimp only; rw [this]; exact hre

/-- C31: the tokens a link's `rel` had (up to invisible characters and case) are still there after the forced ones were added. The link
`as` in the result comes from a link of the source whose attributes are `as0`. -/
theorem C31_existing_kept_partial (S : SanEnv) (C : SanCfg) (hN : C.Normal S.E.U) (hK : SanCfg.Keyed S.E.U C.allowedAttrs) (hne : C.forceRel ≠ [])
    (hT : ∀ t ∈ C.forceRel, t ≠ [] ∧ ∀ c ∈ t, S.E.U.isSpace c = false) (hU : urlRuleFor C.url c%"a" c%"rel" = none)
    (root : Node) (name : Str) (ns : Option Str) (as : Attrs) (kids : List Node) (tpl : Bool)
    (content : List Node) (hm : Reach (.elem name ns as kids tpl content) [sanitizeRoot S C root]) (hp : ProperName name)
    (ha : S.E.U.lower name = c%"a") :
    ∃ as0 kids0 content0 v, Reach (.elem name ns as0 kids0 tpl content0) [root] ∧ as.lookup c%"rel" = some (some v) ∧
      ((as0.map Prod.fst).Nodup → (∀ q ∈ as0, S.E.U.lower q.1 = q.1) → ∀ v0, (c%"rel", some v0) ∈ as0 →
        ∀ t ∈ tokensOf S.E.U (stripOpt C v0), t ∈ words v) := by
  obtain ⟨as0, k, c, hr, rfl⟩ := root_origin S C root name ns as kids tpl content hm hp
  have low : S.E.U.lower c%"rel" = c%"rel" := by rw [S.E.U.lower_ascii _ (by decide)]; decide
  unfold postAttrs
  dsimp only
  rw [if_neg (by simpa using hne)]
  obtain ⟨v, h1, h2, h3, h4⟩ := merge_spec S.E.U C.forceRel hT name (sanAttrs S C name (if C.stripInv then stripAttrs as0 else as0)) ha
  refine ⟨as0, k, c, v, hr, h1, ?_⟩
  intro hn hl v0 hv0 t ht
  refine (h3 t).2 (.inr ⟨(c%"rel", stripVal C (some v0)), ?_, low, ?_⟩)
  · obtain ⟨q, hq1, hq2, hq3⟩ := effAttrs_rel C hne
    apply sanAttrs_keeps S C hN name as0 _ _ hv0 hn hl
    · have : stripP S.E.U.isSpace c%"rel" = c%"rel" := by
        apply stripP_nospace
        intro x hx
        simp only [List.mem_cons, List.not_mem_nil, or_false] at hx
        rcases hx with rfl | rfl | rfl <;> (rw [S.E.U.isSpace_ascii _ (by decide)]; decide)
      rw [this]; simp
    · exact allowedFor_complete S.E.U (effAttrs C) (effAttrs_keyed _ _ hK) name _ q hq1 (by rw [ha]; exact hq2) hq3
    · decide
    · rw [ha]; exact hU
    · decide
  · unfold stripVal
    unfold stripOpt at ht
    split
    · rename_i hs; rw [if_pos hs] at ht; exact ht
    · rename_i hs; rw [if_neg hs] at ht; exact ht

set_option maxRecDepth 4000 in
/-- C31 fails for a forced "token" with white space (F27): each run adds the whole text again, so `rel` has duplicate tokens. -/
theorem C31_spaced_token_fails :
    ¬ ∀ (S : SanEnv) (C : SanCfg) (root : Node) (name : Str) (ns : Option Str) (as : Attrs) (kids : List Node) (tpl : Bool) (content : List Node) (v : Str),
      C.forceRel ≠ [] → (∀ t ∈ C.forceRel, t ≠ []) → Reach (.elem name ns as kids tpl content) [sanitizeRoot S C root] → ProperName name →
      S.E.U.lower name = c%"a" → as.lookup c%"rel" = some (some v) → (words v).Nodup := by
  intro h
  have := h SanEnv.sample { allowedTags := [c%"a"], forceRel := [c%"x y"] } (.doc [.elem c%"a" none [(c%"rel", some c%"x")] [] false []]) c%"a" none
    [(c%"rel", some c%"x x y")] [] false [] c%"x x y" (by simp) (by simp)
    (.doc (List.mem_singleton.2 rfl) (.here (List.mem_singleton.2 rfl))) (by unfold ProperName; decide) (by decide) (by decide)
  revert this; decide

set_option maxRecDepth 4000 in
/-- Non-vacuity of C31 and C59. -/
example : Reach (.elem c%"a" none [(c%"id", some c%"i"), (c%"rel", some c%"me nofollow")] [.text c%"t"] false [])
    [sanitizeRoot SanEnv.sample { allowedTags := [c%"a"], allowedAttrs := [(c%"*", [c%"id"])], forceRel := [c%"nofollow"] }
      (.doc [.elem c%"x" none [] [.elem c%"a" none [(c%"id", some c%"i"), (c%"rel", some c%"me")] [.text c%"t"] false []] false []])] :=
  .doc (List.mem_singleton.2 rfl) (.here (List.mem_singleton.2 rfl))

example : Visible Uni.sample { allowedTags := [c%"a"] } (.elem c%"a" none [] [] false []) [.doc [.elem c%"x" none [] [.elem c%"a" none [] [] false []] false []]] :=
  .doc (List.mem_singleton.2 rfl) (.kid (List.mem_singleton.2 rfl) (by unfold ProperName; decide) (by unfold Foreign; decide) (by decide) (by decide)
    (.here (List.mem_singleton.2 rfl)))

end JH
