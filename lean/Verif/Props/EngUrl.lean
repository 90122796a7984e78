import Verif.Props.Url

/-! What the fast check of URLs in the parser keeps. -/
namespace JH
open Spec

theorem browser_get (E : UrlEnv) {s : Str} (hc : Clean E s) {sc : Str} (h : browserScheme s = some sc) : getScheme E.U (normUrl s) = some sc := by
  unfold browserScheme at h
  rw [clean_urlInput E s hc, Option.map_eq_some_iff] at h
  obtain ⟨⟨a, r⟩, h1, h2⟩ := h
  obtain ⟨e, hv⟩ := (splitScheme_iff s a r).mp h1
  rw [e, normUrl_append, normUrl_id a (fun x hx => (validScheme_char a hv x hx).2.2.2.2.2.1)]
  rw [show normUrl (':' :: r) = ':' :: normUrl r by rw [normUrl_eq, normUrl_eq]; rfl, getScheme_of_split E.U a _ hv, ← h2]

theorem get_colon (U : Uni) {v sc : Str} (h : getScheme U v = some sc) : ':' ∈ v := by
  obtain ⟨a, r, rfl, _⟩ := getScheme_split U v sc h
  simp

/-- A text that does not begin with two slashes, one of them perhaps a backslash, is not a network path. -/
theorem not_network (E : UrlEnv) {s : Str} (hc : Clean E s) (h : ∀ a b r, s = a :: b :: r → slash a = true → slash b = true → False) : networkPath s = false := by
  unfold networkPath
  rw [clean_urlInput E s hc]
  cases s with
  | nil => rfl
  | cons a r =>
    cases r with
    | nil => rfl
    | cons b r =>
      by_cases hab : (slash a && slash b) = true
      · rw [Bool.and_eq_true] at hab
        exact (h a b r rfl hab.1 hab.2).elim
      · simpa using hab

theorem slash_cases {c : Char} (h : slash c = true) : c = '/' ∨ c = '\\' := by simpa [slash] using h

/-- C15, C16: a URL that the parser's fast check keeps has, for a browser, an allowed scheme or none, and is not a network path. -/
theorem C15_fast (E : UrlEnv) (rule : UrlRule) (rel : Bool) (value out : Str) (hres : ∀ r, rule.resolve = some r → SchemeName r)
    (hk : fastUrl E rule rel value = some (some out)) : (∀ sc, browserScheme out = some sc → sc ∈ rule.schemes) ∧ networkPath out = false := by
  unfold fastUrl at hk
  rw [Option.ite_none_left_eq_some] at hk
  replace hk := hk.2
  have hstrip := stripP_head E.U.isSpace value
  have hstrip' := stripP_last E.U.isSpace value
  generalize stripP E.U.isSpace value = s at hk hstrip hstrip'
  dsimp only at hk
  by_cases he : s.isEmpty = true
  · rw [if_pos he] at hk; simp at hk
  rw [if_neg he] at hk
  have clean : (s.all fun c => decide (0x20 ≤ c.toNat) && decide (c.toNat ≤ 0x7e)) = true → Clean E s := fun h => by
    refine ⟨fun x hx => ?_, hstrip, hstrip'⟩
    have := List.all_eq_true.mp h x hx
    simp only [Bool.and_eq_true, decide_eq_true_eq] at this
    simp only [isUrlControl, Bool.or_eq_false_iff, decide_eq_false_iff_not]
    omega
  have abs : ∀ w : Str, isValidScheme w = true → lowerA w = w → w ∈ rule.schemes → startsWith (w ++ c%"://") s = true → Clean E s →
      (∀ sc, browserScheme s = some sc → sc ∈ rule.schemes) ∧ networkPath s = false := by
    intro w hv hl hm hst hc
    obtain ⟨t, ht⟩ := startsWith_iff.mp hst
    constructor
    · intro sc hsc
      have h1 := browser_get E hc hsc
      rw [ht, show w ++ c%"://" ++ t = w ++ (':' :: '/' :: '/' :: t) by simp, normUrl_append,
        normUrl_id w (fun x hx => (validScheme_char w hv x hx).2.2.2.2.2.1),
        show normUrl (':' :: '/' :: '/' :: t) = ':' :: normUrl ('/' :: '/' :: t) by rw [normUrl_eq, normUrl_eq]; rfl, getScheme_of_split E.U w _ hv, hl] at h1
      rw [← Option.some.inj h1]; exact hm
    · refine not_network E hc fun a b r e ha _ => ?_
      cases w with
      | nil => simp [isValidScheme] at hv
      | cons x w =>
        rw [ht] at e
        simp at e
        have := validScheme_char _ hv x (by simp)
        rw [← e.1] at ha
        rcases slash_cases ha with h | h
        · exact this.2.1 h
        · exact this.2.2.2.2.1 h
  by_cases Ahttps : (startsWith c%"https://" s && !s.contains ' ' && s.all fun c => decide (0x20 ≤ c.toNat) && decide (c.toNat ≤ 0x7e)) = true
  · rw [if_pos Ahttps] at hk
    have h : (startsWith c%"https://" s = true ∧ (!s.contains ' ') = true) ∧ (s.all fun c => decide (0x20 ≤ c.toNat) && decide (c.toNat ≤ 0x7e)) = true := by
      rwa [Bool.and_eq_true, Bool.and_eq_true] at Ahttps
    by_cases hm : rule.schemes.contains c%"https" = true
    · rw [if_pos hm] at hk
      have hk := Option.some.inj (Option.some.inj hk)
      subst hk
      exact abs c%"https" (by decide) (by decide) (by simpa using hm) h.1.1 (clean h.2)
    · rw [if_neg hm] at hk; simp at hk
  rw [if_neg Ahttps] at hk
  by_cases Ahttp : (startsWith c%"http://" s && !s.contains ' ' && s.all fun c => decide (0x20 ≤ c.toNat) && decide (c.toNat ≤ 0x7e)) = true
  · rw [if_pos Ahttp] at hk
    have h : (startsWith c%"http://" s = true ∧ (!s.contains ' ') = true) ∧ (s.all fun c => decide (0x20 ≤ c.toNat) && decide (c.toNat ≤ 0x7e)) = true := by
      rwa [Bool.and_eq_true, Bool.and_eq_true] at Ahttp
    by_cases hm : rule.schemes.contains c%"http" = true
    · rw [if_pos hm] at hk
      have hk := Option.some.inj (Option.some.inj hk)
      subst hk
      exact abs c%"http" (by decide) (by decide) (by simpa using hm) h.1.1 (clean h.2)
    · rw [if_neg hm] at hk; simp at hk
  rw [if_neg Ahttp] at hk
  by_cases hpr : (!s.all fun c => decide (0x20 ≤ c.toNat) && decide (c.toNat ≤ 0x7e)) = true
  · rw [if_pos hpr] at hk; simp at hk
  rw [if_neg hpr] at hk
  have hc := clean (by simpa using hpr)
  clear abs clean hpr
  have hash : s.head? = some '#' → (∀ sc, browserScheme s = some sc → sc ∈ rule.schemes) ∧ networkPath s = false := by
    intro h2
    cases s with
    | nil => simp at h2
    | cons x r =>
      have hx : x = '#' := by simpa using h2
      constructor
      · intro sc hsc
        unfold browserScheme at hsc
        rw [clean_urlInput E _ hc, Option.map_eq_some_iff] at hsc
        obtain ⟨⟨a, r'⟩, h3, -⟩ := hsc
        obtain ⟨e, hv⟩ := (splitScheme_iff _ a r').mp h3
        cases a with
        | nil => simp [isValidScheme] at hv
        | cons y a =>
          simp at e
          exact absurd (e.1.symm.trans hx) (validScheme_char _ hv y (by simp)).2.2.2.1
      · refine not_network E hc fun a b t e ha _ => ?_
        simp at e
        rw [← e.1, hx] at ha
        simp [slash] at ha
  have res : ∀ r0 t, rule.resolve = some r0 → E.U.lower r0 ∈ rule.schemes → (∀ x ∈ t, isUrlControl x = false) →
      (∀ y, t.getLast? = some y → isUrlWs y = false) → (∀ sc, browserScheme (E.U.lower r0 ++ c%":" ++ t) = some sc → sc ∈ rule.schemes) ∧
        networkPath (E.U.lower r0 ++ c%":" ++ t) = false := by
    intro r0 t h1 h3 ht1 ht2
    have hv := (schemeName_iff r0).mp (hres r0 h1)
    have hva := validScheme_char r0 hv
    have hlow : E.U.lower r0 = lowerA r0 := E.U.lower_ascii _ (List.all_eq_true.mpr fun x hx => (hva x hx).2.2.2.2.2.2)
    rw [hlow] at h3 ⊢
    have hvl := lowerA_valid r0 hv
    have hvc := validScheme_char _ hvl
    have hin : urlInput (lowerA r0 ++ c%":" ++ t) = lowerA r0 ++ c%":" ++ t := by
      refine urlInput_id _ (fun x hx => ?_) (fun y hy => ?_) (fun y hy => ?_)
      · rw [List.mem_append, List.mem_append] at hx
        rcases hx with (hx | hx) | hx
        · exact ws_control x (hvc x hx).2.2.2.2.2.1
        · simp at hx; rw [hx]; decide
        · exact ht1 x hx
      · cases hl : lowerA r0 with
        | nil => rw [hl] at hvl; simp [isValidScheme] at hvl
        | cons a r =>
          rw [hl] at hy hvc
          simp at hy
          rw [← hy]
          exact (hvc a (by simp)).2.2.2.2.2.1
      · cases t with
        | nil =>
          rw [List.append_nil, List.getLast?_append] at hy
          simp at hy; rw [← hy]; decide
        | cons a r =>
          rw [List.getLast?_append, show (a :: r).getLast? = some ((a :: r).getLast (by simp)) from List.getLast?_eq_some_getLast (by simp)] at hy
          simp only [Option.some_or, Option.some.injEq] at hy
          exact ht2 y (by rw [← hy]; exact List.getLast?_eq_some_getLast (by simp))
    constructor
    · intro sc hsc
      unfold browserScheme at hsc
      rw [hin, show lowerA r0 ++ c%":" ++ t = lowerA r0 ++ ':' :: t by simp, (splitScheme_iff _ _ _).mpr ⟨rfl, hvl⟩] at hsc
      simp only [Option.map_some, lowerA_idem, Option.some.injEq] at hsc
      rw [← hsc]; exact h3
    · unfold networkPath
      rw [hin]
      cases hr : lowerA r0 with
      | nil => rw [hr] at hvl; simp [isValidScheme] at hvl
      | cons a r =>
        rw [hr] at hvl
        have := validScheme_char _ hvl a (by simp)
        have hsa : slash a = false := by simp [slash, this.2.1, this.2.2.2.2.1]
        simp only [List.cons_append, List.append_assoc]
        cases r with
        | nil => simp [hsa]
        | cons b r => simp [hsa]
  have plain : '\\' ∉ normUrl s → startsWith c%"//" (normUrl s) = false → networkPath s = false := by
    intro hb hst
    refine not_network E hc fun a b r e ha hb' => ?_
    have keep : ∀ x, slash x = true → isUrlWs x = false := by
      intro x hx
      rcases slash_cases hx with rfl | rfl <;> decide
    have hn : normUrl s = a :: b :: normUrl r := by
      rw [e, normUrl_eq, normUrl_eq, List.filter_cons, if_pos (by simp [keep a ha]), List.filter_cons, if_pos (by simp [keep b hb'])]
    rw [hn] at hb hst
    rcases slash_cases ha with rfl | rfl
    · rcases slash_cases hb' with rfl | rfl
      · simp [startsWith] at hst
      · simp at hb
    · simp at hb
  split at hk
  · next hcol =>
    have nocol : ':' ∉ s := by simpa using hcol
    have nosch : ∀ sc, browserScheme s = some sc → sc ∈ rule.schemes := fun sc hsc => by
      have := get_colon _ (browser_get E hc hsc)
      rw [normUrl_eq, List.mem_filter] at this
      exact absurd this.1 nocol
    split at hk
    · simp at hk
    next hbs =>
    have hbs' : '\\' ∉ s := by simpa using hbs
    split at hk
    · next hh =>
      split at hk
      · simp only [Option.some.injEq] at hk
        subst hk
        refine hash ?_
        obtain ⟨t, ht⟩ := startsWith_iff.mp hh
        rw [ht]; rfl
      · simp at hk
    split at hk
    · next hst =>
      cases hr : rule.resolve with
      | none => rw [hr] at hk; simp at hk
      | some r0 =>
        rw [hr] at hk
        dsimp only at hk
        split at hk
        · simp at hk
        split at hk
        · simp at hk
        next hm =>
        simp only [Option.some.injEq] at hk
        subst hk
        exact res r0 s hr (by simpa using hm) hc.noControl fun y hy => clean_edge E y (hc.noControl y (List.mem_of_getLast? hy)) (hc.last y hy)
    · next hst =>
      split at hk
      · simp only [Option.some.injEq] at hk
        subst hk
        refine ⟨nosch, not_network E hc fun a b r e ha hb => ?_⟩
        rw [e] at hbs' hst
        rcases slash_cases ha with rfl | rfl
        · rcases slash_cases hb with rfl | rfl
          · exact hst (by simp [startsWith])
          · simp at hbs'
        · simp at hbs'
      · simp at hk
  · split at hk
    · simp at hk
    next hne =>
    simp only [Bool.or_eq_true, not_or] at hne
    have hbs : '\\' ∉ normUrl s := by simpa using hne.2
    split at hk
    · next hh =>
      split at hk
      · simp only [Option.some.injEq] at hk
        subst hk
        refine hash ?_
        cases s with
        | nil => simp [normUrl, startsWith] at hh
        | cons c r =>
          rw [clean_norm_cons E _ hc c r rfl] at hh
          obtain ⟨t, ht⟩ := startsWith_iff.mp hh
          simp at ht
          rw [ht.1]; rfl
      · simp at hk
    split at hk
    · next hst =>
      cases hr : rule.resolve with
      | none => rw [hr] at hk; simp at hk
      | some r0 =>
        rw [hr] at hk
        dsimp only at hk
        split at hk
        · simp at hk
        split at hk
        · simp at hk
        next hm =>
        simp only [Option.some.injEq] at hk
        subst hk
        have hw : ∀ x ∈ normUrl s, isUrlWs x = false := by
          intro x hx
          rw [normUrl_eq, List.mem_filter] at hx
          simpa using hx.2
        exact res r0 (normUrl s) hr (by simpa using hm) (fun x hx => ws_control x (hw x hx)) fun y hy => hw y (List.mem_of_getLast? hy)
    · next hst =>
      have hst' : startsWith c%"//" (normUrl s) = false := by simpa using hst
      split at hk
      · next sc hg =>
        split at hk
        · simp at hk
        next hm =>
        split at hk
        · simp at hk
        simp only [Option.some.injEq] at hk
        subst hk
        refine ⟨fun sc' hsc => ?_, plain hbs hst'⟩
        have := browser_get E hc hsc
        rw [hg] at this
        rw [← Option.some.inj this]
        simpa using hm
      · next hg =>
        split at hk
        · simp only [Option.some.injEq] at hk
          subst hk
          refine ⟨fun sc' hsc => ?_, plain hbs hst'⟩
          have := browser_get E hc hsc
          rw [hg] at this
          exact absurd this (by simp)
        · simp at hk

example : fastUrl UrlEnv.sample { schemes := [c%"https"] } true c%" https://a\\b " = some (some c%"https://a\\b") ∧
    fastUrl UrlEnv.sample { schemes := [c%"https"] } true c%"java script:x" = some none := by decide

end JH
