import Verif.Props.SanOrigin
import Verif.Props.UrlList
/-! C31: forced link relations. -/
namespace JH
open Spec

theorem mem_addTokens (ts : List Str) : ∀ (acc : List Str) (t : Str), t ∈ ts.foldl addToken acc ↔ t ∈ acc ∨ t ∈ ts := by
  induction ts with
  | nil => intro acc t; simp
  | cons a ts ih =>
    intro acc t
    rw [List.foldl_cons, ih]
    unfold addToken
    by_cases h : acc.contains a = true
    · rw [if_pos h]
      have ha : a ∈ acc := by simpa using h
      constructor
      · rintro (h | h)
        · exact .inl h
        · exact .inr (by simp [h])
      · rintro (h | h)
        · exact .inl h
        · rcases List.mem_cons.1 h with rfl | h
          · exact .inl ha
          · exact .inr h
    · rw [if_neg h]
      simp only [List.mem_append, List.mem_cons, List.not_mem_nil, or_false]
      exact or_assoc

theorem addTokens_nodup (ts : List Str) : ∀ acc : List Str, acc.Nodup → (ts.foldl addToken acc).Nodup := by
  induction ts with
  | nil => intro acc h; exact h
  | cons a ts ih =>
    intro acc h
    rw [List.foldl_cons]
    apply ih
    unfold addToken
    by_cases hc : acc.contains a = true
    · rw [if_pos hc]; exact h
    · rw [if_neg hc]
      have ha : a ∉ acc := by simpa using hc
      rw [List.nodup_append]
      refine ⟨h, by simp, ?_⟩
      intro x hx y hy
      have := List.mem_singleton.1 hy
      subst this
      intro e; subst e; exact ha hx

theorem lookup_filter_ne (k : Str) (f : Str × Option Str → Bool) (d : Attrs) (hf : ∀ p ∈ d, p.1 = k → f p = true) :
    (d.filter f).lookup k = d.lookup k := by
  induction d with
  | nil => rfl
  | cons a d ih =>
    have ih' := ih fun p hp => hf p (by simp [hp])
    by_cases ha : k = a.1
    · have := hf a (by simp) ha.symm
      rw [List.filter_cons, if_pos this, List.lookup, List.lookup]
      simp [ha]
    · have hb : (k == a.1) = false := by simpa using ha
      rw [List.filter_cons]
      split
      · rw [List.lookup, List.lookup, hb]; exact ih'
      · rw [ih', List.lookup, hb]

theorem lookup_dictSet (k : Str) (v : Option Str) (d : Attrs) : (dictSet k v d).lookup k = some v := by
  unfold dictSet
  split
  · rename_i h
    induction d with
    | nil => simp at h
    | cons a d ih =>
      rw [List.map_cons]
      by_cases ha : a.1 = k
      · rw [if_pos ha]; simp [List.lookup]
      · rw [if_neg ha]
        have hb : (k == a.1) = false := by simpa using fun e => ha (Eq.symm e)
        rw [List.lookup, hb]
        apply ih
        simpa [ha] using h
  · rename_i h
    induction d with
    | nil => simp [List.lookup]
    | cons a d ih =>
      have ha : a.1 ≠ k := by
        intro e; apply h; simp [e]
      have hb : (k == a.1) = false := by simpa using fun e => ha (Eq.symm e)
      rw [List.cons_append, List.lookup, hb]
      apply ih
      intro h2; apply h
      simp only [List.any_cons, h2, Bool.or_true]

/-- The tokens of an attribute value as Python reads them: runs of characters that are not white space, in lower case. -/
def Spec.tokensOf (U : Uni) (v : Str) : List Str := (runs U.isSpace v).map U.lower

theorem stripP_nospace (sp : Char → Bool) (t : Str) (h : ∀ x ∈ t, sp x = false) : stripP sp t = t := by
  have d : ∀ l : Str, (∀ x ∈ l, sp x = false) → l.dropWhile sp = l := by
    intro l hl
    cases l with
    | nil => rfl
    | cons a l => rw [List.dropWhile_cons, if_neg (by simp [hl a (by simp)])]
  unfold stripP rstripP lstripP
  rw [d t h, d t.reverse (fun x hx => h x (List.mem_reverse.1 hx)), List.reverse_reverse]

theorem relTokens_eq (U : Uni) (v : Option Str) : relTokens U v = tokensOf U (v.getD []) := by
  unfold relTokens tokensOf
  rw [splitWs_runs _ _ _ (Nat.le_refl _)]
  have e : (runs U.isSpace (v.getD [])).map (fun t => U.lower (stripP U.isSpace t)) = (runs U.isSpace (v.getD [])).map U.lower := by
    apply List.map_congr_left
    intro t ht
    rw [stripP_nospace _ t (runs_pieces _ _ t ht).2]
  rw [e, List.filter_eq_self]
  intro t ht
  obtain ⟨t0, h0, rfl⟩ := List.mem_map.1 ht
  simpa using U.lower_ne t0 (runs_pieces _ _ t0 h0).1

theorem ws_of_nospace (U : Uni) (c : Char) (h : U.isSpace c = false) : ws c = false := by
  by_cases hw : ws c = true
  · exfalso
    simp only [ws, List.mem_cons, List.not_mem_nil, or_false, decide_eq_true_eq] at hw
    rcases hw with rfl | rfl | rfl | rfl | rfl <;> (rw [U.isSpace_ascii _ (by decide)] at h; exact absurd h (by decide))
  · simpa using hw

/-- C31 for the attributes of one link: whatever they are, afterwards there is a `rel` whose tokens (as a browser reads them) are
without duplicates, contain all forced tokens and all tokens of the `rel` attributes there were, and nothing else; it is the only attribute whose
name is `rel` in any case. -/
theorem merge_spec (U : Uni) (tokens : List Str) (hT : ∀ t ∈ tokens, t ≠ [] ∧ ∀ c ∈ t, U.isSpace c = false) (name : Str) (as : Attrs)
    (hn : U.lower name = c%"a") :
    ∃ v, (mergeRel U tokens name as).lookup c%"rel" = some (some v) ∧ (words v).Nodup ∧
      (∀ t, t ∈ words v ↔ t ∈ tokens ∨ ∃ p ∈ as, U.lower p.1 = c%"rel" ∧ t ∈ tokensOf U (p.2.getD [])) ∧
      ∀ q ∈ mergeRel U tokens name as, U.lower q.1 = c%"rel" → q.1 = c%"rel" := by
  have low : U.lower c%"rel" = c%"rel" := by rw [U.lower_ascii _ (by decide)]; decide
  have key : ∀ all : List Str, all = tokens.foldl addToken (((as.filter fun p => U.lower p.1 = c%"rel").flatMap fun p => relTokens U p.2).foldl addToken []) →
      (words (join c%" " all)).Nodup ∧
      (∀ t, t ∈ words (join c%" " all) ↔ t ∈ tokens ∨ ∃ p ∈ as, U.lower p.1 = c%"rel" ∧ t ∈ tokensOf U (p.2.getD [])) := by
    intro all e
    have hmem : ∀ t, t ∈ all ↔ t ∈ tokens ∨ ∃ p ∈ as, U.lower p.1 = c%"rel" ∧ t ∈ tokensOf U (p.2.getD []) := by
      intro t
      rw [e, mem_addTokens, mem_addTokens]
      simp only [List.not_mem_nil, false_or, List.mem_flatMap, List.mem_filter, decide_eq_true_eq, relTokens_eq]
      constructor
      · rintro (⟨p, ⟨h1, h2⟩, h3⟩ | h)
        · exact .inr ⟨p, h1, h2, h3⟩
        · exact .inl h
      · rintro (h | ⟨p, h1, h2, h3⟩)
        · exact .inr h
        · exact .inl ⟨p, ⟨h1, h2⟩, h3⟩
    have hok : ∀ t ∈ all, t ≠ [] ∧ ∀ x ∈ t, ws x = false := by
      intro t ht
      rcases (hmem t).1 ht with h | ⟨p, -, -, h⟩
      · exact ⟨(hT t h).1, fun x hx => ws_of_nospace U x ((hT t h).2 x hx)⟩
      · obtain ⟨t0, h0, rfl⟩ := List.mem_map.1 h
        have := runs_pieces _ _ t0 h0
        exact ⟨U.lower_ne _ this.1, fun x hx => ws_of_nospace U x (U.lower_space t0 this.2 x hx)⟩
    rw [words_join all hok]
    refine ⟨?_, hmem⟩
    rw [e]
    exact addTokens_nodup _ _ (addTokens_nodup _ _ List.nodup_nil)
  unfold mergeRel
  rw [if_neg (by simpa using hn)]
  dsimp only
  generalize hall : tokens.foldl addToken (((as.filter fun p => U.lower p.1 = c%"rel").flatMap fun p => relTokens U p.2).foldl addToken []) = all
  obtain ⟨h1, h2⟩ := key all hall.symm
  refine ⟨join c%" " all, ?_, h1, h2, ?_⟩
  · split
    · exact lookup_dictSet _ _ _
    · rename_i h
      simp only [Bool.or_eq_true, not_or] at h
      simpa using h.2
  · split
    · intro q hq hl
      rcases mem_dictSet hq with rfl | ⟨hq, -⟩
      · rfl
      · have := (List.mem_filter.1 hq).2
        simpa [hl] using this
    · rename_i h
      intro q hq hl
      simp only [Bool.or_eq_true, not_or, Bool.and_eq_true, not_and] at h
      have h3 := h.1.2
      have hne : (as.filter fun p => U.lower p.1 = c%"rel").isEmpty = false := by
        have : q ∈ as.filter fun p => U.lower p.1 = c%"rel" := List.mem_filter.2 ⟨hq, by simpa using hl⟩
        cases hfl : as.filter fun p => U.lower p.1 = c%"rel" with
        | nil => rw [hfl] at this; simp at this
        | cons => rfl
      have h4 := (h3 (by simp [hne])).2
      simp only [List.any_eq_true, not_exists, not_and] at h4
      have := h4 q (List.mem_filter.2 ⟨hq, by simpa using hl⟩)
      simpa using this

/-- C31: after sanitizing with `force_link_rel`, every link (element `a`) has a `rel` attribute with every forced token, and without
duplicate tokens; no second attribute is named `rel` in another case. Partial: forced tokens must not contain white space; with white space the
claim is false, see `C31_spaced_token_fails`. -/
theorem C31_forced_partial (S : SanEnv) (C : SanCfg) (hne : C.forceRel ≠ []) (hT : ∀ t ∈ C.forceRel, t ≠ [] ∧ ∀ c ∈ t, S.E.U.isSpace c = false)
    (root : Node) (name : Str) (ns : Option Str) (as : Attrs) (kids : List Node) (tpl : Bool)
    (content : List Node) (hm : Reach (.elem name ns as kids tpl content) [sanitizeRoot S C root]) (hp : ProperName name)
    (ha : S.E.U.lower name = c%"a") :
    ∃ v, as.lookup c%"rel" = some (some v) ∧ (∀ t ∈ C.forceRel, t ∈ words v) ∧ (words v).Nodup ∧
      ∀ q ∈ as, S.E.U.lower q.1 = c%"rel" → q.1 = c%"rel" := by
  obtain ⟨as0, k, c, hr, rfl⟩ := root_origin S C root name ns as kids tpl content hm hp
  unfold postAttrs
  dsimp only
  rw [if_neg (by simpa using hne)]
  obtain ⟨v, h1, h2, h3, h4⟩ := merge_spec S.E.U C.forceRel hT name (sanAttrs S C name (if C.stripInv then stripAttrs as0 else as0)) ha
  exact ⟨v, h1, fun t ht => (h3 t).2 (.inl ht), h2, h4⟩

end JH
