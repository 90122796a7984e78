import Verif.Props.SanIdem
import Verif.Props.UrlIdem
import Verif.Props.SanKeep
/-! C30: the attributes of an element, sanitized twice. -/
namespace JH
open Spec

/-! ### Dicts -/

theorem dictSet_noop {k : Str} {v : Option Str} {d : Attrs} (hn : (d.map Prod.fst).Nodup) (h : (k, v) ∈ d) : dictSet k v d = d := by
  unfold dictSet
  rw [if_pos (by rw [List.any_eq_true]; exact ⟨_, h, by simp⟩)]
  have : ∀ p ∈ d, (if p.1 = k then (k, v) else p) = p := by
    intro p hp
    split
    · rename_i e
      have h1 := lookup_of_mem hn h
      have h2 := lookup_of_mem hn (show (p.1, p.2) ∈ d from hp)
      rw [e, h1] at h2
      simp only [Option.some.injEq] at h2
      exact Prod.ext e.symm h2
    · rfl
  rw [List.map_congr_left this, List.map_id']

theorem dictSet_nodup {k : Str} {v : Option Str} {d : Attrs} (hn : (d.map Prod.fst).Nodup) : ((dictSet k v d).map Prod.fst).Nodup := by
  unfold dictSet
  split
  · rw [List.map_map]
    have : (d.map (Prod.fst ∘ fun p => if p.1 = k then (k, v) else p)) = d.map Prod.fst := by
      apply List.map_congr_left
      intro p _
      simp only [Function.comp]
      split
      · rename_i e; exact e.symm
      · rfl
    rw [this]; exact hn
  · rename_i h
    rw [List.map_append, List.nodup_append]
    refine ⟨hn, by simp, ?_⟩
    intro x hx y hy
    simp only [List.map_cons, List.map_nil, List.mem_singleton] at hy
    subst hy
    rintro rfl
    apply h
    obtain ⟨p, hp, e⟩ := List.mem_map.1 hx
    rw [List.any_eq_true]; exact ⟨p, hp, by simp [e]⟩

theorem filter_nodup {f : Str × Option Str → Bool} {d : Attrs} (hn : (d.map Prod.fst).Nodup) : ((d.filter f).map Prod.fst).Nodup :=
  List.Nodup.sublist (List.Sublist.map _ List.filter_sublist) hn

theorem allowlist_nodup (U : Uni) (attrs : List (Str × List Str)) (tag : Str) (as : Attrs) (hn : (as.map Prod.fst).Nodup) :
    ((allowlistAttrs U attrs tag as).map Prod.fst).Nodup := by
  unfold allowlistAttrs
  dsimp only
  split
  · exact hn
  · have : ∀ (l out : Attrs), (out.map Prod.fst).Nodup → ((l.foldl (allowStep U (allowedFor U attrs tag)) out).map Prod.fst).Nodup := by
      intro l
      induction l with
      | nil => intro out h; exact h
      | cons p l ih =>
        intro out h
        rw [List.foldl_cons]
        apply ih
        unfold allowStep
        split
        · exact h
        · split
          · exact dictSet_nodup h
          · split
            · exact dictSet_nodup h
            · exact h
    exact this as [] (by simp)

/-- Names and values after the allowlist. -/
theorem allowlist_from (U : Uni) (attrs : List (Str × List Str)) (tag : Str) (as : Attrs) :
    ∀ q ∈ allowlistAttrs U attrs tag as, q.1 ≠ [] ∧ ∃ a ∈ as, q.2 = a.2 := by
  unfold allowlistAttrs
  dsimp only
  split
  · rename_i h
    intro q hq
    rw [List.all_eq_true] at h
    have := h q hq
    simp only [Bool.and_eq_true, Bool.not_eq_true', List.isEmpty_eq_false_iff] at this
    exact ⟨this.1, q, hq, rfl⟩
  · have : ∀ (l out : Attrs), (∀ a ∈ l, a ∈ as) → (∀ q ∈ out, q.1 ≠ [] ∧ ∃ a ∈ as, q.2 = a.2) →
        ∀ q ∈ l.foldl (allowStep U (allowedFor U attrs tag)) out, q.1 ≠ [] ∧ ∃ a ∈ as, q.2 = a.2 := by
      intro l
      induction l with
      | nil => intro out _ h; exact h
      | cons p l ih =>
        intro out hl h
        rw [List.foldl_cons]
        apply ih _ fun a ha => hl a (by simp [ha])
        intro q hq
        unfold allowStep at hq
        split at hq
        · exact h q hq
        · rename_i hs
          have hne : p.1 ≠ [] := by
            intro e; apply hs; rw [e]; simp [stripP, lstripP, rstripP]
          split at hq
          · rcases mem_dictSet hq with rfl | h'
            · exact ⟨hne, p, hl p (by simp), rfl⟩
            · exact h q h'.1
          · split at hq
            · rcases mem_dictSet hq with rfl | h'
              · exact ⟨U.lower_ne _ hne, p, hl p (by simp), rfl⟩
              · exact h q h'.1
            · exact h q hq
    exact this as [] (fun _ h => h) (by simp)

theorem dropUrl_nodup (E : UrlEnv) (p : UrlPolicy) (name : Str) (as : Attrs) (hn : (as.map Prod.fst).Nodup) :
    ((dropUrlAttrs E p name as).map Prod.fst).Nodup := by
  unfold dropUrlAttrs
  dsimp only
  have fold : ∀ (l out : Attrs), (out.map Prod.fst).Nodup →
      ((l.foldl (fun out a => match urlAct E p (E.U.lower name) as a.1 a.2 with | .set s => dictSet (E.U.lower a.1) (some s) out | _ => out) out).map Prod.fst).Nodup := by
    intro l
    induction l with
    | nil => intro out h; exact h
    | cons a l ih =>
      intro out h
      rw [List.foldl_cons]
      apply ih
      split
      · exact dictSet_nodup h
      · exact h
  exact fold _ _ (filter_nodup hn)

theorem style_nodup (E : UrlEnv) (C : SanCfg) (name : Str) (as : Attrs) (hn : (as.map Prod.fst).Nodup) :
    ((styleAttrs E C name as).map Prod.fst).Nodup := by
  unfold styleAttrs
  split
  · exact hn
  · split
    · exact hn
    · split
      · exact filter_nodup hn
      · apply dictSet_nodup
        split
        · exact hn
        · exact filter_nodup hn

theorem merge_nodup (U : Uni) (tokens : List Str) (name : Str) (as : Attrs) (hn : (as.map Prod.fst).Nodup) :
    ((mergeRel U tokens name as).map Prod.fst).Nodup := by
  unfold mergeRel
  split
  · exact hn
  · dsimp only
    split
    · exact dictSet_nodup (filter_nodup hn)
    · exact hn

/-! ### Fixed points -/

theorem allowlist_fix (U : Uni) (attrs : List (Str × List Str)) (tag : Str) (as : Attrs)
    (h : ∀ q ∈ as, q.1 ≠ [] ∧ q.1 ∈ allowedFor U attrs tag) : allowlistAttrs U attrs tag as = as := by
  unfold allowlistAttrs
  dsimp only
  rw [if_pos]
  rw [List.all_eq_true]
  intro q hq
  have := h q hq
  simp [this.1, this.2]

theorem dropUrl_fix (E : UrlEnv) (p : UrlPolicy) (name : Str) (as : Attrs) (hn : (as.map Prod.fst).Nodup) (hl : ∀ q ∈ as, E.U.lower q.1 = q.1)
    (h : ∀ q ∈ as, urlAct E p (E.U.lower name) as q.1 q.2 = .keep ∨ ∃ s, q.2 = some s ∧ urlAct E p (E.U.lower name) as q.1 q.2 = .set s) :
    dropUrlAttrs E p name as = as := by
  unfold dropUrlAttrs
  dsimp only
  have fold : ∀ (l : Attrs), (∀ a ∈ l, a ∈ as) →
      l.foldl (fun out a => match urlAct E p (E.U.lower name) as a.1 a.2 with | .set s => dictSet (E.U.lower a.1) (some s) out | _ => out) as = as := by
    intro l
    induction l with
    | nil => intro _; rfl
    | cons a l ih =>
      intro hl'
      rw [List.foldl_cons]
      have ha := hl' a (by simp)
      have : (match urlAct E p (E.U.lower name) as a.1 a.2 with | .set s => dictSet (E.U.lower a.1) (some s) as | _ => as) = as := by
        rcases h a ha with h1 | ⟨s, h2, h1⟩
        · rw [h1]
        · rw [h1]
          dsimp only
          apply dictSet_noop hn
          rw [hl a ha, ← h2]; exact ha
      rw [this]
      exact ih fun x hx => hl' x (by simp [hx])
  rw [List.filter_eq_self.2]
  · exact fold as fun _ h => h
  · intro q hq
    rcases h q hq with h1 | ⟨s, -, h1⟩
    · rw [h1]
    · rw [h1]; simpa using hl q hq

theorem style_fix (E : UrlEnv) (C : SanCfg) (name : Str) (as : Attrs) (hn : (as.map Prod.fst).Nodup) (hl : ∀ q ∈ as, E.U.lower q.1 = q.1)
    (h : C.cssProps ≠ [] → ∀ v, (c%"style", v) ∈ as → ∃ s, v = some s ∧ sanitizeStyle E C.cssProps (some C.url) (E.U.lower name) s = some s) :
    styleAttrs E C name as = as := by
  unfold styleAttrs
  split
  · rfl
  · rename_i hne
    split
    · rfl
    · rename_i k v hf
      have hm := List.mem_of_find?_eq_some hf
      have hk : E.U.lower k = c%"style" := by simpa using List.find?_some hf
      have : k = c%"style" := by rw [← hk]; exact (hl _ hm).symm
      subst this
      obtain ⟨s, rfl, hs⟩ := h (by simpa using hne) v hm
      simp only [Option.bind_some, hs, if_true]
      exact dictSet_noop hn hm

theorem addTokens_disj (ts : List Str) : ∀ acc : List Str, (acc ++ ts).Nodup → ts.foldl addToken acc = acc ++ ts := by
  induction ts with
  | nil => intro acc _; simp
  | cons a ts ih =>
    intro acc h
    have ha : a ∉ acc := by
      rw [List.nodup_append] at h
      intro hm
      exact h.2.2 a hm a (by simp) rfl
    rw [List.foldl_cons, addToken, if_neg (by simpa using ha), ih _ (by simpa using h)]
    simp

theorem addTokens_sub (ts : List Str) : ∀ acc : List Str, (∀ t ∈ ts, t ∈ acc) → ts.foldl addToken acc = acc := by
  induction ts with
  | nil => intro acc _; rfl
  | cons a ts ih =>
    intro acc h
    rw [List.foldl_cons, addToken, if_pos (by simpa using h a (by simp))]
    exact ih acc fun t ht => h t (by simp [ht])

/-- Forced tokens as they should be: not empty, without white space, in lower case, without invisible characters. -/
def Spec.RelToken (U : Uni) (t : Str) : Prop := t ≠ [] ∧ (∀ c ∈ t, U.isSpace c = false) ∧ U.lower t = t ∧ stripInvisible t = t

/-- What `mergeRel` leaves on a link. -/
theorem merge_value (U : Uni) (tokens : List Str) (hT : ∀ t ∈ tokens, RelToken U t) (name : Str) (as : Attrs) (hn : U.lower name = c%"a") :
    ∃ all : List Str, (mergeRel U tokens name as).lookup c%"rel" = some (some (join c%" " all)) ∧ all.Nodup ∧ (∀ t ∈ tokens, t ∈ all) ∧
      (∀ t ∈ all, t ∈ tokens ∨ ∃ p ∈ as, t ∈ relTokens U p.2) := by
  unfold mergeRel
  rw [if_neg (by simpa using hn)]
  dsimp only
  generalize hall : tokens.foldl addToken (((as.filter fun p => U.lower p.1 = c%"rel").flatMap fun p => relTokens U p.2).foldl addToken []) = all
  refine ⟨all, ?_, ?_, ?_, ?_⟩
  · split
    · exact lookup_dictSet _ _ _
    · rename_i h
      simp only [Bool.or_eq_true, not_or] at h
      simpa using h.2
  · rw [← hall]; exact addTokens_nodup _ _ (addTokens_nodup _ _ List.nodup_nil)
  · intro t ht; rw [← hall, mem_addTokens]; exact .inr ht
  · intro t ht
    rw [← hall, mem_addTokens, mem_addTokens] at ht
    rcases ht with (h | h) | h
    · simp at h
    · obtain ⟨p, hp, h⟩ := List.mem_flatMap.1 h
      exact .inr ⟨p, (List.mem_filter.1 hp).1, h⟩
    · exact .inl h

theorem relTokens_ok (U : Uni) (v : Option Str) (t : Str) (h : t ∈ relTokens U v) : t ≠ [] ∧ (∀ c ∈ t, U.isSpace c = false) ∧ U.lower t = t := by
  rw [relTokens_eq] at h
  obtain ⟨t0, h0, rfl⟩ := List.mem_map.1 h
  have := runs_pieces _ _ t0 h0
  exact ⟨U.lower_ne _ this.1, U.lower_space t0 this.2, U.lower_idem _⟩

theorem merge_fix (U : Uni) (tokens : List Str) (hT : ∀ t ∈ tokens, RelToken U t) (name : Str) (B : Attrs) (hn : (B.map Prod.fst).Nodup)
    (hne : ∀ p ∈ B, U.lower p.1 = c%"rel" → p.1 = c%"rel") (all : List Str) (hB : U.lower name = c%"a" → B.lookup c%"rel" = some (some (join c%" " all)))
    (hd : all.Nodup) (hsub : ∀ t ∈ tokens, t ∈ all) (hok : ∀ t ∈ all, t ≠ [] ∧ (∀ c ∈ t, U.isSpace c = false) ∧ U.lower t = t) :
    mergeRel U tokens name B = B := by
  have low : U.lower c%"rel" = c%"rel" := by rw [U.lower_ascii _ (by decide)]; decide
  have hsp : U.isSpace ' ' = true := by rw [U.isSpace_ascii _ (by decide)]; decide
  unfold mergeRel
  by_cases ha : U.lower name = c%"a"
  · rw [if_neg (by simpa using ha)]
    have hl := hB ha
    have hmem := lookup_mem hl
    have hfil : (B.filter fun p => U.lower p.1 = c%"rel") = [(c%"rel", some (join c%" " all))] := by
      have e1 : (B.filter fun p => U.lower p.1 = c%"rel") = B.filter fun p => p.1 = c%"rel" := by
        apply List.filter_congr
        intro p hp
        by_cases h : p.1 = c%"rel"
        · simp [h, low]
        · have : U.lower p.1 ≠ c%"rel" := fun e => h (hne p hp e)
          simp [h, this]
      rw [e1]
      clear e1 hne hl hB
      induction B with
      | nil => simp at hmem
      | cons b B ih =>
        rw [List.map_cons, List.nodup_cons] at hn
        by_cases hb : b.1 = c%"rel"
        · rw [List.filter_cons, if_pos (by simpa using hb)]
          have hno : B.filter (fun p => decide (p.1 = c%"rel")) = [] := by
            rw [List.filter_eq_nil_iff]
            intro p hp e
            apply hn.1
            rw [hb]
            exact List.mem_map.2 ⟨p, hp, by simpa using e⟩
          rw [hno]
          rcases List.mem_cons.1 hmem with h | h
          · rw [← h]
          · exact absurd (List.mem_map.2 ⟨_, h, hb.symm⟩) hn.1
        · rw [List.filter_cons, if_neg (by simpa using hb)]
          apply ih hn.2
          rcases List.mem_cons.1 hmem with h | h
          · exact absurd (by rw [← h]) hb
          · exact h
    rw [hfil]
    have hrt : relTokens U (some (join c%" " all)) = all := by
      unfold relTokens
      rw [Option.getD_some, splitWs_join U.isSpace hsp all (fun u hu => ⟨(hok u hu).1, (hok u hu).2.1⟩)]
      have : (all.map fun t => U.lower (stripP U.isSpace t)) = all := by
        have : ∀ t ∈ all, U.lower (stripP U.isSpace t) = t := by
          intro t ht
          rw [stripP_nospace _ _ (hok t ht).2.1, (hok t ht).2.2]
        rw [List.map_congr_left this, List.map_id']
      rw [this, List.filter_eq_self]
      intro t ht
      simpa using (hok t ht).1
    simp only [List.flatMap_cons, List.flatMap_nil, List.append_nil, hrt]
    rw [addTokens_disj all [] (by simpa using hd), List.nil_append, addTokens_sub tokens all hsub, if_neg]
    simp [hl]
  · rw [if_pos (by simpa using ha)]

/-! ### One element -/

theorem splitWs_mem (sp : Char → Bool) (s : Str) : ∀ (w t : Str), t ∈ splitWs sp w s → ∀ c ∈ t, c ∈ w ∨ c ∈ s := by
  induction s with
  | nil =>
    intro w t h c hc
    simp only [splitWs] at h
    split at h
    · simp at h
    · rw [List.mem_singleton] at h; subst h; exact .inl (List.mem_reverse.1 hc)
  | cons x s ih =>
    intro w t h c hc
    simp only [splitWs] at h
    split at h
    · split at h
      · rcases ih [] t h c hc with h' | h'
        · simp at h'
        · exact .inr (by simp [h'])
      · rcases List.mem_cons.1 h with rfl | h
        · exact .inl (List.mem_reverse.1 hc)
        · rcases ih [] t h c hc with h' | h'
          · simp at h'
          · exact .inr (by simp [h'])
    · rcases ih (x :: w) t h c hc with h' | h'
      · rcases List.mem_cons.1 h' with rfl | h'
        · exact .inr (by simp)
        · exact .inl h'
      · exact .inr (by simp [h'])

/-- The URL policies C30 speaks about: no URL filter (an arbitrary function), no proxying (the proxied address is proxied again), no
rule for `content` (the refresh directive, see `C30_refresh_fails`), for the attributes that decide whether another one is a URL, for
`rel`, or for URLs inside `style`. -/
structure Spec.UrlIdemOk (p : UrlPolicy) : Prop where
  filter : p.filter = none
  proxy : ∀ q ∈ p.rules, effHandling p q.2 ≠ .proxy
  resolve : ∀ q ∈ p.rules, ∀ r, q.2.resolve = some r → SchemeName r
  attrs : ∀ q ∈ p.rules, q.1.2 ∉ [c%"content", c%"name", c%"http-equiv", c%"rel", c%"style"] ∧ ¬ c%"style:" <+: q.1.2

theorem urlRule_mem {p : UrlPolicy} {tag attr : Str} {r : UrlRule} (h : urlRuleFor p tag attr = some r) : ∃ q ∈ p.rules, q.1.2 = attr ∧ q.2 = r := by
  unfold urlRuleFor at h
  split at h
  · rename_i r' hr; simp only [Option.some.injEq] at h; subst h; exact ⟨_, lookup_mem hr, rfl, rfl⟩
  · exact ⟨_, lookup_mem h, rfl, rfl⟩

theorem no_rule {p : UrlPolicy} (hp : UrlIdemOk p) {attr : Str} (h : attr ∈ [c%"content", c%"name", c%"http-equiv", c%"rel", c%"style"]) (tag : Str) :
    urlRuleFor p tag attr = none := by
  cases hr : urlRuleFor p tag attr with
  | none => rfl
  | some r =>
    obtain ⟨q, hq, e, -⟩ := urlRule_mem hr
    exact absurd (e ▸ h) (hp.attrs q hq).1

theorem no_css {p : UrlPolicy} (hp : UrlIdemOk p) (tag prop : Str) : cssRule p tag prop = none := by
  cases hr : cssRule p tag prop with
  | none => rfl
  | some r =>
    unfold cssRule at hr
    have fin : ∀ t, (t, c%"style:" ++ prop) ∈ p.rules.map Prod.fst → False := by
      intro t h
      obtain ⟨q, hq, e⟩ := List.mem_map.1 h
      refine (hp.attrs q hq).2 ?_
      rw [e]
      exact List.prefix_append _ _
    exfalso
    split at hr
    · rename_i r' h; exact fin _ (List.mem_map.2 ⟨_, lookup_mem h, rfl⟩)
    · exact fin _ (List.mem_map.2 ⟨_, lookup_mem hr, rfl⟩)

theorem refresh_content (U : Uni) (tag attr : Str) (as : Attrs) (h : sinkKind U tag attr as = some .refresh) : attr = c%"content" := by
  unfold sinkKind at h
  rw [Option.map_eq_some_iff] at h
  obtain ⟨s, hs, hk⟩ := h
  have h1 := List.mem_of_find?_eq_some hs
  have h2 := List.find?_some hs
  simp only [Bool.and_eq_true, decide_eq_true_eq] at h2
  rw [← h2.1.1]
  have : urlSinks.all fun s => decide (s.kind = .refresh → s.attr = c%"content") := by decide
  rw [List.all_eq_true] at this
  have := this s h1
  simp only [decide_eq_true_eq] at this
  exact this hk

theorem sinkValue_idem (E : UrlEnv) (p : UrlPolicy) (rule : UrlRule) (tag attr : Str) (kind : SinkKind) (u s : Str) (hk : kind ≠ .refresh)
    (hf : p.filter = none) (hp : effHandling p rule ≠ .proxy) (hr : ∀ r, rule.resolve = some r → SchemeName r)
    (h : sinkValue E p rule tag attr kind u = some s) : sinkValue E p rule tag attr kind s = some s ∧ stripInvisible s = s := by
  cases kind with
  | url =>
    simp only [sinkValue, sanitizeSimple, hf] at h ⊢
    have := url_idem E rule tag attr _ _ _ u s hp hr h
    exact ⟨this.1, this.2.1⟩
  | srcset => exact srcset_idem E p rule tag attr u s hf hp hr h
  | commaList => exact list_idem E true p rule tag attr u s hf hp hr h
  | spaceList => exact list_idem E false p rule tag attr u s hf hp hr h
  | refresh => exact absurd rfl hk

theorem urlAct_congr (E : UrlEnv) (p : UrlPolicy) (tag : Str) (as as' : Attrs) (k : Str) (v : Option Str)
    (h : ∀ g ∈ [c%"http-equiv", c%"name"], guardAttrs E.U g as = guardAttrs E.U g as') : urlAct E p tag as k v = urlAct E p tag as' k v := by
  unfold urlAct
  dsimp only
  rw [sinkKind_congr E.U tag _ as as' h]

/-- Setting an attribute to the value it was set to. -/
theorem urlAct_again (E : UrlEnv) (p : UrlPolicy) (hp : UrlIdemOk p) (tag : Str) (as : Attrs) (k : Str) (v : Option Str) (s : Str)
    (h : urlAct E p tag as k v = .set s) : urlAct E p tag as k (some s) = .set s ∧ stripInvisible s = s := by
  obtain ⟨rule, kind, u, h1, h2, h3, h4⟩ := urlAct_set _ _ _ _ _ _ _ h
  obtain ⟨q, hq, hq1, hq2⟩ := urlRule_mem h2
  have hkind : kind ≠ .refresh := by
    rintro rfl
    split at h3
    · have := refresh_content _ _ _ _ h3
      rw [this, no_rule hp (by simp)] at h2
      simp at h2
    · simp at h3
  obtain ⟨hi, hv⟩ := sinkValue_idem E p rule tag _ kind u s hkind hp.filter (hq2 ▸ hp.proxy q hq) (hq2 ▸ hp.resolve q hq) h4
  refine ⟨?_, hv⟩
  unfold urlAct
  dsimp only
  cases hs : isSinkAttr (E.U.lower k) with
  | false =>
    rw [hs] at h3
    simp only [Bool.false_eq_true, if_false, Option.some.injEq] at h3
    subst h3
    simp [h2, hi]
  | true =>
    rw [hs] at h3
    simp only [if_true] at h3
    simp [h2, h3, hi]

theorem urlAct_keep_any (E : UrlEnv) (p : UrlPolicy) (tag : Str) (as : Attrs) (k : Str) (v : Option Str) (h1 : isSinkAttr (E.U.lower k) = false)
    (h2 : urlRuleFor p tag (E.U.lower k) = none) : urlAct E p tag as k v = .keep := by
  unfold urlAct; dsimp only; rw [h1, h2]

/-- The policies C30 speaks about. -/
structure Spec.IdemPolicy (S : SanEnv) (C : SanCfg) : Prop where
  normal : C.Normal S.E.U
  keyed : SanCfg.Keyed S.E.U C.allowedAttrs
  url : UrlIdemOk C.url
  rel : ∀ t ∈ C.forceRel, RelToken S.E.U t

theorem attrs_settle (S : SanEnv) (C : SanCfg) (hP : IdemPolicy S C) : AttrsSettle S C := by
  intro name as0 hname hn0
  have lows : S.E.U.lower c%"style" = c%"style" := by rw [S.E.U.lower_ascii _ (by decide)]; decide
  have lowr : S.E.U.lower c%"rel" = c%"rel" := by rw [S.E.U.lower_ascii _ (by decide)]; decide
  -- the stages of the first run
  generalize hA0 : (if C.stripInv then stripAttrs as0 else as0) = A0
  have hn0' : (A0.map Prod.fst).Nodup := by
    rw [← hA0]
    split
    · rw [show (stripAttrs as0).map Prod.fst = as0.map Prod.fst by simp [stripAttrs]]; exact hn0
    · exact hn0
  have hv0 : C.stripInv = true → ∀ q ∈ A0, ∀ s, q.2 = some s → stripInvisible s = s := by
    intro hs q hq s e
    rw [← hA0, if_pos hs] at hq
    obtain ⟨a, -, rfl⟩ := List.mem_map.1 hq
    simp only [Option.map_eq_some_iff] at e
    obtain ⟨t, -, rfl⟩ := e
    exact C55_idempotent t
  generalize hA1 : allowlistAttrs S.E.U (effAttrs C) name A0 = A1
  have hn1 : (A1.map Prod.fst).Nodup := by rw [← hA1]; exact allowlist_nodup _ _ _ _ hn0'
  have hk1 : ∀ q ∈ A1, q.1 ∈ allowedFor S.E.U (effAttrs C) name := by rw [← hA1]; exact allowlist_keys _ _ _ _
  have hl1 : ∀ q ∈ A1, S.E.U.lower q.1 = q.1 := fun q hq => allowed_lower S.E.U C hP.normal name q.1 (allowedFor_allowed _ _ _ _ (hk1 q hq))
  have he1 : ∀ q ∈ A1, q.1 ≠ [] := by intro q hq; rw [← hA1] at hq; exact (allowlist_from _ _ _ _ q hq).1
  have hv1 : C.stripInv = true → ∀ q ∈ A1, ∀ s, q.2 = some s → stripInvisible s = s := by
    intro hs q hq s e
    rw [← hA1] at hq
    obtain ⟨-, a, ha, e2⟩ := allowlist_from _ _ _ _ q hq
    exact hv0 hs a ha s (by rw [← e2, e])
  generalize hA2 : dropUrlAttrs S.E C.url name A1 = A2
  have hn2 : (A2.map Prod.fst).Nodup := by rw [← hA2]; exact dropUrl_nodup _ _ _ _ hn1
  have h2 : ∀ q ∈ A2, (∃ a ∈ A1, q.1 = a.1) ∧
      ((urlAct S.E C.url (S.E.U.lower name) A1 q.1 q.2 = .keep ∧ q ∈ A1) ∨
        ∃ s, q.2 = some s ∧ urlAct S.E C.url (S.E.U.lower name) A1 q.1 q.2 = .set s ∧ stripInvisible s = s) := by
    intro q hq
    rw [← hA2] at hq
    rcases dropUrl_mem S.E C.url name A1 q hq with ⟨h, hk⟩ | ⟨h, -, s, hs, hv⟩ | ⟨a, ha, s, hs, rfl⟩
    · exact ⟨⟨q, h, rfl⟩, .inl ⟨hk, h⟩⟩
    · exact ⟨⟨q, h, rfl⟩, .inr ⟨s, hv, hs, (urlAct_again _ _ hP.url _ _ _ _ _ hs).2⟩⟩
    · refine ⟨⟨a, ha, hl1 a ha⟩, .inr ⟨s, rfl, ?_⟩⟩
      dsimp only
      rw [hl1 a ha]
      exact urlAct_again _ _ hP.url _ _ _ _ _ hs
  have hl2 : ∀ q ∈ A2, S.E.U.lower q.1 = q.1 := by
    intro q hq; obtain ⟨a, ha, e⟩ := (h2 q hq).1; rw [e]; exact hl1 a ha
  have hv2 : C.stripInv = true → ∀ q ∈ A2, ∀ s, q.2 = some s → stripInvisible s = s := by
    intro hs q hq s e
    rcases (h2 q hq).2 with ⟨-, h⟩ | ⟨s', e', -, h⟩
    · exact hv1 hs q h s e
    · rw [e] at e'; simp only [Option.some.injEq] at e'; rw [e']; exact h
  generalize hA3 : styleAttrs S.E C name A2 = A3
  have hn3 : (A3.map Prod.fst).Nodup := by rw [← hA3]; exact style_nodup _ _ _ _ hn2
  have h3 : ∀ q ∈ A3, (q ∈ A2 ∧ (C.cssProps ≠ [] → q.1 ≠ c%"style")) ∨
      (∃ s, q = (c%"style", some s) ∧ sanitizeStyle S.E C.cssProps (some C.url) (S.E.U.lower name) s = some s ∧
        (C.stripInv = true → stripInvisible s = s) ∧ ∃ a ∈ A2, a.1 = c%"style") := by
    intro q hq
    rw [← hA3] at hq
    have hq' := hq
    unfold styleAttrs at hq
    rcases style_mem S.E C name A2 q hq' with ⟨h, hh⟩ | ⟨v, s, rfl, hs, a, ha, hl⟩
    · exact .inl ⟨h, fun hc => hh hc hl2⟩
    · right
      have ha1 : a.1 = c%"style" := by rw [← hl]; exact (hl2 a ha).symm
      refine ⟨s, rfl, ?_⟩
      have hcss : ¬ C.cssProps.isEmpty = true := by
        intro hc
        unfold sanitizeStyle at hs
        have hc' : C.cssProps = [] := by simpa using hc
        rw [hc'] at hs
        simp at hs
      rw [if_neg hcss] at hq
      split at hq
      · rename_i hf
        rw [List.find?_eq_none] at hf
        exact absurd (by simpa using hl) (hf a ha)
      · rename_i k v' hf
        have hm := List.mem_of_find?_eq_some hf
        have hkk : k = c%"style" := by
          have h1 : S.E.U.lower k = c%"style" := by simpa using List.find?_some hf
          rw [← h1]; exact (hl2 _ hm).symm
        subst hkk
        split at hq
        · have := (List.mem_filter.1 hq).2
          simp at this
        · rename_i s' hs'
          rcases mem_dictSet hq with e | ⟨-, hne⟩
          · simp only [Prod.mk.injEq, Option.some.injEq, true_and] at e
            subst e
            cases v' with
            | none => simp at hs'
            | some v' =>
              simp only [Option.bind_some] at hs'
              have := style_idem S.E C.cssProps C.url (S.E.U.lower name) v' s (fun prop => no_css hP.url _ _) hs'
              exact ⟨this.1, fun hst => this.2 (hv2 hst _ hm v' rfl), a, ha, ha1⟩
          · exact absurd rfl hne
  have hk3 : ∀ q ∈ A3, ∃ a ∈ A1, q.1 = a.1 := by
    intro q hq
    rcases h3 q hq with ⟨h, -⟩ | ⟨s, rfl, -, -, a, ha, e⟩
    · exact (h2 q h).1
    · obtain ⟨b, hb, e2⟩ := (h2 a ha).1
      exact ⟨b, hb, by rw [← e2, e]⟩
  have hv3 : C.stripInv = true → ∀ q ∈ A3, ∀ s, q.2 = some s → stripInvisible s = s := by
    intro hs q hq s e
    rcases h3 q hq with ⟨h, -⟩ | ⟨s', rfl, -, h, -⟩
    · exact hv2 hs q h s e
    · simp only [Option.some.injEq] at e; rw [← e]; exact h hs
  -- the result
  generalize hA4 : (if C.forceRel.isEmpty then A3 else mergeRel S.E.U C.forceRel name A3) = A4
  have hpost : postAttrs S C name as0 = A4 := by
    simp only [postAttrs, sanAttrs]
    rw [hA0, hA1, hA2, hA3, hA4]
  have hn4 : (A4.map Prod.fst).Nodup := by
    rw [← hA4]
    split
    · exact hn3
    · exact merge_nodup _ _ _ _ hn3
  have h4 : ∀ q ∈ A4, q ∈ A3 ∨ (q.1 = c%"rel" ∧ S.E.U.lower name = c%"a" ∧ C.forceRel ≠ []) := by
    intro q hq
    rw [← hA4] at hq
    split at hq
    · exact .inl hq
    · rename_i hf
      exact (merge_mem _ _ _ _ q hq).imp_right fun h => ⟨h.1, h.2, by simpa using hf⟩
  have hg : ∀ g ∈ [c%"http-equiv", c%"name"], guardAttrs S.E.U g A4 = guardAttrs S.E.U g A1 := by
    intro g hg
    have h1 : isSinkAttr g = false ∧ g ≠ c%"style" ∧ g ≠ c%"rel" ∧ g ∈ [c%"content", c%"name", c%"http-equiv", c%"rel", c%"style"] := by
      simp only [List.mem_cons, List.not_mem_nil, or_false] at hg
      rcases hg with rfl | rfl <;> decide
    have h2 := no_rule hP.url h1.2.2.2 (S.E.U.lower name)
    have e3 : guardAttrs S.E.U g A3 = guardAttrs S.E.U g A1 := by
      rw [← hA3, guard_style _ _ _ _ _ h1.2.1, ← hA2, guard_dropUrl _ _ _ _ _ h1.1 h2]
    rw [← hA4]
    split
    · exact e3
    · rw [guard_merge _ _ _ _ _ h1.2.2.1]; exact e3
  have hkey4 : ∀ q ∈ A4, q.1 ≠ [] ∧ q.1 ∈ allowedFor S.E.U (effAttrs C) name ∧ S.E.U.lower q.1 = q.1 := by
    intro q hq
    rcases h4 q hq with h | ⟨h, ha, hne⟩
    · obtain ⟨a, ha, e⟩ := hk3 q h
      rw [e]; exact ⟨he1 a ha, hk1 a ha, hl1 a ha⟩
    · rw [h]
      obtain ⟨r, hr1, hr2, hr3⟩ := effAttrs_rel C hne
      exact ⟨by simp, allowedFor_complete S.E.U (effAttrs C) (effAttrs_keyed _ _ hP.keyed) name _ r hr1 (by rw [ha]; exact hr2) hr3, lowr⟩
  have hrel : ∃ all : List Str, (S.E.U.lower name = c%"a" → C.forceRel ≠ [] → A4.lookup c%"rel" = some (some (join c%" " all))) ∧ all.Nodup ∧ (∀ t ∈ C.forceRel, t ∈ all) ∧
      (∀ t ∈ all, t ≠ [] ∧ (∀ c ∈ t, S.E.U.isSpace c = false) ∧ S.E.U.lower t = t) ∧ (C.stripInv = true → ∀ t ∈ all, stripInvisible t = t) := by
    by_cases ha : S.E.U.lower name = c%"a"
    · obtain ⟨all, r1, r2, r3, r4⟩ := merge_value S.E.U C.forceRel hP.rel name A3 ha
      refine ⟨all, ?_, r2, r3, ?_, ?_⟩
      · intro _ hne
        rw [← hA4, if_neg (by simpa using hne)]; exact r1
      · intro t ht
        rcases r4 t ht with h | ⟨p, -, h⟩
        · have := hP.rel t h; exact ⟨this.1, this.2.1, this.2.2.1⟩
        · exact relTokens_ok _ _ _ h
      · intro hs t ht
        rcases r4 t ht with h | ⟨p, hp, h⟩
        · exact (hP.rel t h).2.2.2
        · rw [relTokens_eq] at h
          obtain ⟨t0, h0, rfl⟩ := List.mem_map.1 h
          rw [strip_vis_iff]
          intro c hc hci
          have hvis : ∀ c ∈ t0, isInvisible c = false := by
            intro c hc
            have hin : c ∈ p.2.getD [] := by
              rw [← splitWs_runs _ _ _ (Nat.le_refl _)] at h0
              have := splitWs_mem S.E.U.isSpace (p.2.getD []) [] t0 h0 c hc
              simpa using this
            cases hp2 : p.2 with
            | none => rw [hp2] at hin; simp at hin
            | some v =>
              rw [hp2] at hin
              have := (strip_vis_iff v).1 (hv3 hs p hp v hp2) c (by simpa using hin)
              cases hx : isInvisible c with
              | false => rfl
              | true => exact absurd ((isInvisible_iff c).1 hx) this
          have := S.E.lower_visible t0 hvis c hc
          rw [(isInvisible_iff c).2 hci] at this
          simp at this
    · refine ⟨C.forceRel.foldl addToken [], fun h => absurd h ha, addTokens_nodup _ _ List.nodup_nil, fun t ht => (mem_addTokens _ _ _).2 (.inr ht), ?_, ?_⟩
      · intro t ht
        rcases (mem_addTokens _ _ _).1 ht with h | h
        · simp at h
        · have := hP.rel t h; exact ⟨this.1, this.2.1, this.2.2.1⟩
      · intro _ t ht
        rcases (mem_addTokens _ _ _).1 ht with h | h
        · simp at h
        · exact (hP.rel t h).2.2.2
  obtain ⟨all, hr1, hr2, hr3, hr4, hr5⟩ := hrel
  have hv4 : C.stripInv = true → ∀ q ∈ A4, ∀ s, q.2 = some s → stripInvisible s = s := by
    intro hs q hq s e
    rcases h4 q hq with h | ⟨h, ha, hne⟩
    · exact hv3 hs q h s e
    · have : A4.lookup c%"rel" = some q.2 := lookup_of_mem hn4 (by rw [← h]; exact hq)
      rw [hr1 ha hne, e] at this
      simp only [Option.some.injEq] at this
      rw [← this]
      exact join_visible _ _ (by decide) (hr5 hs)
  -- the second run
  have s0 : (if C.stripInv then stripAttrs A4 else A4) = A4 := by
    split
    · rename_i hs
      unfold stripAttrs
      have : ∀ q ∈ A4, (q.1, q.2.map stripInvisible) = q := by
        intro q hq
        obtain ⟨k, v⟩ := q
        cases v with
        | none => rfl
        | some v => simp only [Option.map_some, hv4 hs _ hq v rfl]
      rw [List.map_congr_left this, List.map_id']
    · rfl
  have s1 : allowlistAttrs S.E.U (effAttrs C) name A4 = A4 := allowlist_fix _ _ _ _ fun q hq => ⟨(hkey4 q hq).1, (hkey4 q hq).2.1⟩
  have s2 : dropUrlAttrs S.E C.url name A4 = A4 := by
    apply dropUrl_fix _ _ _ _ hn4 fun q hq => (hkey4 q hq).2.2
    intro q hq
    rw [urlAct_congr S.E C.url _ A4 A1 _ _ hg]
    rcases h4 q hq with h | ⟨h, -, -⟩
    · rcases h3 q h with ⟨h, -⟩ | ⟨s, rfl, -⟩
      · rcases (h2 q h).2 with ⟨h, -⟩ | ⟨s, e, h, -⟩
        · exact .inl h
        · exact .inr ⟨s, e, h⟩
      · exact .inl (urlAct_keep_any _ _ _ _ _ _ (by rw [lows]; decide) (by rw [lows]; exact no_rule hP.url (by simp) _))
    · rw [h]
      exact .inl (urlAct_keep_any _ _ _ _ _ _ (by rw [lowr]; decide) (by rw [lowr]; exact no_rule hP.url (by simp) _))
  have s3 : styleAttrs S.E C name A4 = A4 := by
    apply style_fix _ _ _ _ hn4 fun q hq => (hkey4 q hq).2.2
    intro hc v hv
    rcases h4 _ hv with h | ⟨h, -, -⟩
    · rcases h3 _ h with ⟨-, h⟩ | ⟨s, e, hs, -⟩
      · exact absurd rfl (h hc)
      · simp only [Prod.mk.injEq] at e; exact ⟨s, e.2, hs⟩
    · exact absurd (show c%"style" = c%"rel" from h) (by decide)
  rw [hpost]
  simp only [postAttrs, sanAttrs]
  rw [s0, s1, s2, s3]
  split
  · rfl
  · rename_i hf
    apply merge_fix _ _ hP.rel _ _ hn4 _ all (fun ha => hr1 ha (by simpa using hf)) hr2 hr3 hr4
    intro p hp hl
    rw [← hl]; exact ((hkey4 p hp).2.2).symm

end JH
