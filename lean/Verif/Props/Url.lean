import Verif.Lemmas.Strings
import Verif.Model.Url
import Verif.Spec.Url
import Verif.Spec.TextOps
import Verif.Props.TextOps
/-! C15-C18, C21: the URL rule. -/
namespace JH
open Spec

theorem letter_eq (c : Char) : letter c = isAsciiAlpha c := by
  unfold letter isAsciiAlpha isLowerC isUpperC
  rfl

theorem schemeChar_eq (c : Char) :
    schemeChar c = (isAsciiAlpha c || isDigitC c || c = '+' || c = '-' || c = '.') := by
  unfold schemeChar
  rw [letter_eq]
  rfl

/-- The browser's scheme split and the code's scheme test describe the same texts. -/
theorem schemeTail_iff (u a r : Str) :
    schemeTail u = some (a, r) ↔ u = a ++ ':' :: r ∧ a.all schemeChar = true := by
  induction u generalizing a with
  | nil => simp [schemeTail]
  | cons c u ih =>
    unfold schemeTail
    by_cases hc : c = ':'
    · rw [if_pos hc, hc]
      constructor
      · intro h
        simp only [Option.some.injEq, Prod.mk.injEq] at h
        obtain ⟨rfl, rfl⟩ := h
        exact ⟨rfl, rfl⟩
      · rintro ⟨h, ha⟩
        cases a with
        | nil => simp at h; rw [h]
        | cons x a =>
          simp only [List.cons_append, List.cons.injEq] at h
          rw [← h.1, List.all_cons] at ha
          exact absurd ha (by simp [show schemeChar ':' = false by decide])
    · rw [if_neg hc]
      by_cases hs : schemeChar c = true
      · rw [if_pos hs]
        constructor
        · intro h
          rw [Option.map_eq_some_iff] at h
          obtain ⟨⟨x, y⟩, h1, h2⟩ := h
          simp only [Prod.mk.injEq] at h2
          obtain ⟨rfl, rfl⟩ := h2
          obtain ⟨e1, e2⟩ := (ih x).mp h1
          exact ⟨by rw [e1]; rfl, by rw [List.all_cons, hs, e2]; rfl⟩
        · rintro ⟨h, ha⟩
          cases a with
          | nil => simp at h; exact absurd h.1 hc
          | cons x a =>
            simp only [List.cons_append, List.cons.injEq] at h
            obtain ⟨rfl, h⟩ := h
            rw [List.all_cons] at ha
            rw [(ih a).mpr ⟨h, by simp_all⟩]; rfl
      · rw [if_neg hs]
        constructor
        · simp
        · rintro ⟨h, ha⟩
          cases a with
          | nil => simp at h; exact absurd h.1 hc
          | cons x a =>
            simp only [List.cons_append, List.cons.injEq] at h
            rw [h.1] at hs
            rw [List.all_cons] at ha
            simp_all

theorem splitScheme_iff (u a r : Str) :
    splitScheme u = some (a, r) ↔ u = a ++ ':' :: r ∧ isValidScheme a = true := by
  have hall : ∀ b : Str, b.all schemeChar = b.all fun c => isAsciiAlpha c || isDigitC c || c = '+' || c = '-' || c = '.' := by
    intro b; congr 1
  cases u with
  | nil => simp [splitScheme]
  | cons c u =>
    unfold splitScheme
    dsimp only
    by_cases hc : letter c = true
    · rw [if_pos hc]
      constructor
      · intro h
        rw [Option.map_eq_some_iff] at h
        obtain ⟨⟨x, y⟩, h1, h2⟩ := h
        simp only [Prod.mk.injEq] at h2
        obtain ⟨rfl, rfl⟩ := h2
        obtain ⟨e1, e2⟩ := (schemeTail_iff u x y).mp h1
        refine ⟨by rw [e1]; rfl, ?_⟩
        rw [hall] at e2
        simp only [isValidScheme, ← letter_eq, hc, Bool.true_and]
        exact e2
      · rintro ⟨h, ha⟩
        cases a with
        | nil => simp [isValidScheme] at ha
        | cons x a =>
          simp only [List.cons_append, List.cons.injEq] at h
          obtain ⟨rfl, h⟩ := h
          simp only [isValidScheme, Bool.and_eq_true] at ha
          rw [(schemeTail_iff u a r).mpr ⟨h, by rw [hall]; exact ha.2⟩]; rfl
    · rw [if_neg hc]
      constructor
      · simp
      · rintro ⟨h, ha⟩
        cases a with
        | nil => simp [isValidScheme] at ha
        | cons x a =>
          simp only [List.cons_append, List.cons.injEq] at h
          rw [h.1, letter_eq] at hc
          simp only [isValidScheme, Bool.and_eq_true] at ha
          exact absurd ha.1 hc

theorem schemeName_iff (r : Str) : SchemeName r ↔ isValidScheme r = true := by
  unfold SchemeName
  rw [splitScheme_iff]
  simp

/-- Characters of a scheme. -/
theorem validScheme_char (a : Str) (h : isValidScheme a = true) (x : Char) (hx : x ∈ a) :
    x ≠ ':' ∧ x ≠ '/' ∧ x ≠ '?' ∧ x ≠ '#' ∧ x ≠ '\\' ∧ isUrlWs x = false ∧ isAscii x = true := by
  have hs : schemeChar x = true := by
    cases a with
    | nil => simp at hx
    | cons f r =>
      simp only [isValidScheme, Bool.and_eq_true] at h
      rw [schemeChar_eq]
      rcases List.mem_cons.mp hx with rfl | hx
      · simp [h.1]
      · exact List.all_eq_true.mp h.2 x hx
  rw [schemeChar_eq] at hs
  simp only [isAsciiAlpha, Bool.or_eq_true, decide_eq_true_eq, isLowerC_iff, isUpperC_iff, isDigitC_iff] at hs
  have h1 : ':'.toNat = 58 := rfl
  have h2 : '/'.toNat = 47 := rfl
  have h3 : '?'.toNat = 63 := rfl
  have h4 : '#'.toNat = 35 := rfl
  have h5 : '\\'.toNat = 92 := rfl
  have h6 : '+'.toNat = 43 := rfl
  have h7 : '-'.toNat = 45 := rfl
  have h8 : '.'.toNat = 46 := rfl
  have hn : (33 ≤ x.toNat ∧ x.toNat ≤ 126) ∧ x.toNat ≠ 58 ∧ x.toNat ≠ 47 ∧ x.toNat ≠ 63 ∧ x.toNat ≠ 35 ∧ x.toNat ≠ 92 := by
    rcases hs with (((h | h) | rfl) | rfl) | rfl <;> omega
  refine ⟨?_, ?_, ?_, ?_, ?_, ?_, ?_⟩
  · rintro rfl; omega
  · rintro rfl; omega
  · rintro rfl; omega
  · rintro rfl; omega
  · rintro rfl; omega
  · simp only [isUrlWs, Bool.or_eq_false_iff, decide_eq_false_iff_not]; omega
  · rw [isAscii_iff]; omega

theorem normUrl_eq (v : Str) : normUrl v = v.filter fun c => !isUrlWs c := by
  unfold normUrl
  split
  · rfl
  · rename_i h
    rw [eq_comm, List.filter_eq_self]
    intro c hc
    simp only [Bool.not_eq_true, List.any_eq_false] at h
    simpa using h c hc

theorem normUrl_append (a b : Str) : normUrl (a ++ b) = normUrl a ++ normUrl b := by
  simp [normUrl_eq]

theorem normUrl_id (a : Str) (h : ∀ x ∈ a, isUrlWs x = false) : normUrl a = a := by
  rw [normUrl_eq, List.filter_eq_self]
  intro c hc
  simp [h c hc]

/-- A text with a valid scheme before its first colon is recognised. -/
theorem getScheme_of_split (U : Uni) (a r : Str) (h : isValidScheme a = true) :
    getScheme U (a ++ ':' :: r) = some (lowerA a) := by
  have hc := validScheme_char a h
  have hne : a ≠ [] := by rintro rfl; simp [isValidScheme] at h
  have hp : schemeLikePrefix (a ++ ':' :: r) = some a := by
    unfold schemeLikePrefix
    rw [find_char ':' a r (fun hm => (hc _ hm).1 rfl)]
    dsimp only
    rw [if_neg (by simpa using hne)]
    have stop : ∀ (c : Char) (e : Nat), (∀ x ∈ a, x ≠ c) → c ≠ ':' → a.length < e →
        a.length < (match find? [c] (a ++ ':' :: r) with | some j => if j < e then j else e | none => e) := by
      intro c e hca hc0 he
      cases hf : find? [c] (a ++ ':' :: r) with
      | none => exact he
      | some j =>
        have hj : a.length < j := by
          obtain ⟨-, h2, -⟩ := find?_some hf
          obtain ⟨t, ht⟩ := startsWith_iff.mp h2
          have hg : (a ++ ':' :: r)[j]? = some c := by
            have : ((a ++ ':' :: r).drop j)[0]? = some c := by rw [ht]; rfl
            simpa using this
          rcases Nat.lt_trichotomy j a.length with hlt | heq | hgt
          · rw [List.getElem?_append_left hlt] at hg
            exact absurd rfl (hca c (List.mem_of_getElem? hg))
          · rw [heq, List.getElem?_append_right (Nat.le_refl _)] at hg
            simp at hg
            exact absurd hg.symm hc0
          · exact hgt
        dsimp only
        split <;> omega
    rw [if_neg]
    · rw [List.take_left]
    · rw [Nat.not_le]
      refine stop '#' _ (fun x hx => (hc x hx).2.2.2.1) (by decide) ?_
      refine stop '?' _ (fun x hx => (hc x hx).2.2.1) (by decide) ?_
      refine stop '/' _ (fun x hx => (hc x hx).2.1) (by decide) ?_
      simp
  unfold getScheme
  rw [hp]
  dsimp only
  rw [if_pos h, U.lower_ascii]
  rw [List.all_eq_true]
  exact fun x hx => (hc x hx).2.2.2.2.2.2

theorem getScheme_split (U : Uni) (v sc : Str) (h : getScheme U v = some sc) : ∃ a r, v = a ++ ':' :: r ∧ isValidScheme a = true := by
  unfold getScheme at h
  cases hp : schemeLikePrefix v with
  | none => rw [hp] at h; simp at h
  | some s =>
    rw [hp] at h
    dsimp only at h
    by_cases hv : isValidScheme s = true
    · unfold schemeLikePrefix at hp
      cases hf : find? c%":" v with
      | none => rw [hf] at hp; simp at hp
      | some k =>
        rw [hf] at hp
        dsimp only at hp
        rw [Option.ite_none_left_eq_some, Option.ite_none_left_eq_some, Option.some.injEq] at hp
        replace hp := hp.2.2
        · · obtain ⟨-, h2, -⟩ := find?_some hf
            obtain ⟨t, ht⟩ := startsWith_iff.mp h2
            refine ⟨s, t, ?_, hv⟩
            rw [← hp]
            have := List.take_append_drop k v
            rw [ht] at this
            exact this.symm
    · rw [if_neg hv] at h; simp at h

/-- What `strip()` and the control-character test guarantee about the text that is kept. -/
structure Clean (E : UrlEnv) (s : Str) : Prop where
  noControl : ∀ x ∈ s, isUrlControl x = false
  head : ∀ y, s.head? = some y → E.U.isSpace y = false
  last : ∀ y, s.getLast? = some y → E.U.isSpace y = false

theorem clean_edge (E : UrlEnv) (x : Char) (h1 : isUrlControl x = false) (h2 : E.U.isSpace x = false) : isUrlWs x = false := by
  simp only [isUrlControl, Bool.or_eq_false_iff, decide_eq_false_iff_not] at h1
  simp only [isUrlWs, Bool.or_eq_false_iff, decide_eq_false_iff_not]
  refine ⟨?_, h1.2⟩
  intro h
  have : x = ' ' := by
    apply char_eq_of_toNat
    have : ' '.toNat = 32 := rfl
    omega
  rw [this, E.U.isSpace_ascii _ (by decide)] at h2
  exact absurd h2 (by decide)

theorem urlInput_id (s : Str) (h0 : ∀ x ∈ s, isUrlControl x = false) (h1 : ∀ y, s.head? = some y → isUrlWs y = false)
    (h2 : ∀ y, s.getLast? = some y → isUrlWs y = false) : urlInput s = s := by
  have hw : ∀ y, isUrlWs y = false → c0OrSpace y = false := by
    intro y hy
    simp only [isUrlWs, Bool.or_eq_false_iff, decide_eq_false_iff_not] at hy
    simp only [c0OrSpace, decide_eq_false_iff_not]
    exact hy.1
  have hs := stripP_fix c0OrSpace s (fun y hy => hw y (h1 y hy)) (fun y hy => hw y (h2 y hy))
  unfold stripP rstripP lstripP at hs
  unfold urlInput
  rw [hs, List.filter_eq_self]
  intro c hc
  have := h0 c hc
  simp only [isUrlControl, Bool.or_eq_false_iff, decide_eq_false_iff_not] at this
  simp only [tabOrNewline, Bool.not_eq_true', Bool.or_eq_false_iff, decide_eq_false_iff_not]
  have e1 : '\t'.toNat = 9 := rfl
  have e2 : '\n'.toNat = 10 := rfl
  have e3 : '\r'.toNat = 13 := rfl
  refine ⟨⟨?_, ?_⟩, ?_⟩ <;> rintro rfl <;> omega

theorem clean_urlInput (E : UrlEnv) (s : Str) (h : Clean E s) : urlInput s = s := by
  apply urlInput_id s h.noControl
  · intro y hy
    exact clean_edge E y (h.noControl y (List.mem_of_head? hy)) (h.head y hy)
  · intro y hy
    exact clean_edge E y (h.noControl y (List.mem_of_getLast? hy)) (h.last y hy)

/-- The first character survives normalization. -/
theorem clean_norm_cons (E : UrlEnv) (s : Str) (h : Clean E s) (c : Char) (r : Str) (hs : s = c :: r) :
    normUrl s = c :: normUrl r := by
  subst hs
  have := clean_edge E c (h.noControl c (by simp)) (h.head c rfl)
  rw [normUrl_eq, normUrl_eq, List.filter_cons, if_pos (by simp [this])]

/-- The ways a value can be accepted (the shape of `_sanitize_url_value_with_rule`). -/
inductive Accept (E : UrlEnv) (rule : UrlRule) (h : UrlHandling) (rel : Bool) (s : Str) : Str → Prop
  | fragment : rule.allowFragment = true → s.head? = some '#' → Accept E rule h rel s s
  | resolved (r0 : Str) : rule.resolve = some r0 → r0 ≠ [] → E.U.lower r0 ∈ rule.schemes →
      startsWith c%"//" (normUrl s) = true →
      (∀ hs, rule.hosts = some hs → hostMatches E (E.U.lower r0 ++ c%":" ++ s) hs = true) →
      Accept E rule h rel s (E.U.lower r0 ++ c%":" ++ normUrl s)
  | bare (sc : Str) : getScheme E.U (normUrl s) = some sc → sc ∈ rule.schemes → rule.hosts = none → rel = true → Accept E rule h rel s s
  | absolute (sc : Str) : getScheme E.U (normUrl s) = some sc → sc ∈ rule.schemes →
      (∀ hs, rule.hosts = some hs → hostMatches E s hs = true) → Accept E rule h rel s s
  | relative : getScheme E.U (normUrl s) = none → s.head? ≠ some '#' → startsWith c%"//" (normUrl s) = false → rel = true →
      Accept E rule h rel s s

theorem checkStripped_accept (E : UrlEnv) (rule : UrlRule) (h : UrlHandling) (rel : Bool) (proxy : Option UrlProxy) (s out : Str)
    (hh : ∀ y, s.head? = some y → E.U.isSpace y = false) (hl : ∀ y, s.getLast? = some y → E.U.isSpace y = false)
    (hk : checkStripped E rule h rel proxy s = some out) :
    Clean E s ∧ '\\' ∉ s ∧ s ≠ [] ∧ (h = .proxy → hasInvalidSchemePrefix (normUrl s) = false ∨ s.head? = some '#') ∧
      ∃ v, Accept E rule h rel s v ∧ finishUrl h proxy v = some out := by
  unfold checkStripped at hk
  by_cases hctl : s.any isUrlControl = true
  · rw [if_pos hctl] at hk; simp at hk
  rw [if_neg hctl] at hk
  have hclean : Clean E s := ⟨by simpa [List.any_eq_false] using hctl, hh, hl⟩
  dsimp only at hk
  by_cases he : (normUrl s).isEmpty = true
  · rw [if_pos he] at hk; simp at hk
  rw [if_neg he] at hk
  by_cases hb : (normUrl s).contains '\\' = true
  · rw [if_pos hb] at hk; simp at hk
  rw [if_neg hb] at hk
  have hnb : '\\' ∉ s := by
    intro hm
    apply hb
    rw [List.contains_iff_mem, normUrl_eq, List.mem_filter]
    exact ⟨hm, by decide⟩
  have hne : s ≠ [] := by rintro rfl; exact he rfl
  obtain ⟨c, r, hcr⟩ := List.exists_cons_of_ne_nil hne
  have hnc := clean_norm_cons E s hclean c r hcr
  have hhead : startsWith c%"#" (normUrl s) = true ↔ s.head? = some '#' := by
    rw [hnc, hcr]
    simp only [startsWith, List.isPrefixOf, Bool.and_true, beq_iff_eq, List.head?_cons, Option.some.injEq]
    exact eq_comm
  refine ⟨hclean, hnb, hne, ?_, ?_⟩
  · intro hp
    by_cases hfrag : startsWith c%"#" (normUrl s) = true
    · exact .inr (hhead.mp hfrag)
    · rw [if_neg hfrag] at hk
      left
      by_cases hi : hasInvalidSchemePrefix (normUrl s) = true
      · rw [if_pos (by simp [hp, hi])] at hk; simp at hk
      · simpa using hi
  by_cases hfrag : startsWith c%"#" (normUrl s) = true
  · rw [if_pos hfrag] at hk
    by_cases haf : rule.allowFragment = true
    · rw [if_neg (by simp [haf])] at hk
      exact ⟨s, .fragment haf (hhead.mp hfrag), hk⟩
    · rw [if_pos (by simpa using haf)] at hk; simp at hk
  rw [if_neg hfrag] at hk
  by_cases hinv : (decide (h = .proxy) && hasInvalidSchemePrefix (normUrl s)) = true
  · rw [if_pos hinv] at hk; simp at hk
  rw [if_neg hinv] at hk
  by_cases hpr : startsWith c%"//" (normUrl s) = true
  · rw [if_pos hpr] at hk
    cases hres : rule.resolve with
    | none => rw [hres] at hk; simp at hk
    | some r0 =>
      rw [hres] at hk
      dsimp only at hk
      by_cases hr0 : r0.isEmpty = true
      · rw [if_pos hr0] at hk; simp at hk
      rw [if_neg hr0] at hk
      by_cases hsch : E.U.lower r0 ∈ rule.schemes
      · rw [if_neg (by simpa using hsch)] at hk
        cases hho : rule.hosts with
        | none =>
          rw [hho] at hk
          dsimp only at hk
          rw [if_neg (by simp)] at hk
          exact ⟨_, .resolved r0 hres (by simpa using hr0) hsch hpr (by rw [hho]; simp), hk⟩
        | some hs =>
          rw [hho] at hk
          dsimp only at hk
          by_cases hm : hostMatches E (E.U.lower r0 ++ c%":" ++ s) hs = true
          · rw [if_neg (by rw [hm]; decide)] at hk
            exact ⟨_, .resolved r0 hres (by simpa using hr0) hsch hpr (by
              rw [hho]; intro hs' e; rw [← (Option.some.inj e)]; exact hm), hk⟩
          · rw [if_pos (by rw [Bool.not_eq_true] at hm; rw [hm]; rfl)] at hk; simp at hk
      · rw [if_pos (by simpa using hsch)] at hk; simp at hk
  rw [if_neg hpr] at hk
  cases hsc : getScheme E.U (normUrl s) with
  | none =>
    rw [hsc] at hk
    dsimp only at hk
    by_cases hrel : rel = true
    · rw [if_neg (by simp [hrel])] at hk
      exact ⟨s, .relative hsc (fun e => hfrag (hhead.mpr e)) (by simpa using hpr) hrel, hk⟩
    · rw [if_pos (by simpa using hrel)] at hk; simp at hk
  | some sc =>
    rw [hsc] at hk
    dsimp only at hk
    by_cases hsch : sc ∈ rule.schemes
    · rw [if_neg (by simpa using hsch)] at hk
      by_cases hbare : ((decide (sc = c%"http") || decide (sc = c%"https")) && !startsWith (sc ++ c%"://") (normUrl s)) = true
      · rw [if_pos hbare] at hk
        cases hho : rule.hosts with
        | some hs => rw [hho, if_pos (by rfl)] at hk; simp at hk
        | none =>
          rw [hho, if_neg (by simp)] at hk
          by_cases hrel : rel = true
          · rw [if_neg (by simp [hrel])] at hk
            exact ⟨s, .bare sc hsc hsch hho hrel, hk⟩
          · rw [if_pos (by simpa using hrel)] at hk; simp at hk
      · rw [if_neg hbare] at hk
        cases hho : rule.hosts with
        | none =>
          rw [hho] at hk
          dsimp only at hk
          rw [if_neg (by simp)] at hk
          exact ⟨s, .absolute sc hsc hsch (by rw [hho]; simp), hk⟩
        | some hs =>
          rw [hho] at hk
          dsimp only at hk
          by_cases hm : hostMatches E s hs = true
          · rw [if_neg (by rw [hm]; decide)] at hk
            exact ⟨s, .absolute sc hsc hsch (by rw [hho]; intro hs' e; rw [← (Option.some.inj e)]; exact hm), hk⟩
          · rw [if_pos (by rw [Bool.not_eq_true] at hm; rw [hm]; rfl)] at hk; simp at hk
    · rw [if_pos (by simpa using hsch)] at hk; simp at hk

theorem sanitizeUrl_accept (E : UrlEnv) (rule : UrlRule) (tag attr : Str) (h : UrlHandling) (rel : Bool) (proxy : Option UrlProxy)
    (filter : Option UrlFilter) (value out : Str) (hk : sanitizeUrl E rule tag attr h rel proxy filter value = some out) :
    ∃ s, Clean E s ∧ '\\' ∉ s ∧ s ≠ [] ∧ (h = .proxy → hasInvalidSchemePrefix (normUrl s) = false ∨ s.head? = some '#') ∧
      ∃ v, Accept E rule h rel s v ∧ finishUrl h proxy v = some out := by
  unfold sanitizeUrl at hk
  split at hk
  · simp at hk
  · exact ⟨_, checkStripped_accept E rule h rel proxy _ out (stripP_head _ _) (stripP_last _ _) hk⟩

theorem lowerA_valid (r0 : Str) (hv : isValidScheme r0 = true) : isValidScheme (lowerA r0) = true := by
  have hsc1 : ∀ c : Char, isAsciiAlpha c = true → isAsciiAlpha (lowerC c) = true := by
    intro c hc
    simp only [isAsciiAlpha, Bool.or_eq_true] at hc ⊢
    rcases hc with hc | hc
    · rw [lowerC_eq_self]
      · exact .inl hc
      · rw [isLowerC_iff] at hc
        rw [← Bool.not_eq_true, isUpperC_iff]; omega
    · left
      have := lowerC_toNat_upper hc
      rw [isUpperC_iff] at hc
      rw [isLowerC_iff]; omega
  cases r0 with
  | nil => simp [isValidScheme] at hv
  | cons f r =>
    simp only [isValidScheme, Bool.and_eq_true, List.all_eq_true] at hv
    simp only [lowerA_cons, isValidScheme, Bool.and_eq_true, List.all_eq_true]
    refine ⟨hsc1 f hv.1, ?_⟩
    intro x hx
    simp only [lowerA, List.mem_map] at hx
    obtain ⟨y, hy, rfl⟩ := hx
    have := hv.2 y hy
    by_cases hy2 : isAsciiAlpha y = true
    · rw [hsc1 y hy2]; rfl
    · rw [lowerC_eq_self]
      · exact this
      · simp only [isAsciiAlpha, Bool.or_eq_true, not_or, Bool.not_eq_true] at hy2
        exact hy2.2

theorem resolved_ws (a s : Str) (hv : isValidScheme a = true) : ∀ x ∈ a ++ c%":" ++ normUrl s, isUrlWs x = false := by
  intro x hx
  rw [List.mem_append, List.mem_append] at hx
  rcases hx with (hx | hx) | hx
  · exact (validScheme_char a hv x hx).2.2.2.2.2.1
  · simp at hx; rw [hx]; rfl
  · rw [normUrl_eq, List.mem_filter] at hx; simpa using hx.2

theorem ws_control (x : Char) (h : isUrlWs x = false) : isUrlControl x = false := by
  simp only [isUrlWs, Bool.or_eq_false_iff, decide_eq_false_iff_not] at h
  simp only [isUrlControl, Bool.or_eq_false_iff, decide_eq_false_iff_not]
  omega

theorem resolved_input (a s : Str) (hv : isValidScheme a = true) : urlInput (a ++ c%":" ++ normUrl s) = a ++ c%":" ++ normUrl s := by
  have hws := resolved_ws a s hv
  exact urlInput_id _ (fun x hx => ws_control x (hws x hx)) (fun y hy => hws y (List.mem_of_head? hy))
    (fun y hy => hws y (List.mem_of_getLast? hy))

/-- What is known of an accepted value before proxying. -/
theorem accept_scheme (E : UrlEnv) (rule : UrlRule) (h : UrlHandling) (rel : Bool) (s v : Str) (hc : Clean E s)
    (hres : ∀ r, rule.resolve = some r → SchemeName r) (ha : Accept E rule h rel s v) (sc : Str)
    (hsc : browserScheme v = some sc) : sc ∈ rule.schemes := by
  have hsame : ∀ sc, browserScheme s = some sc → getScheme E.U (normUrl s) = some sc := by
    intro sc h
    unfold browserScheme at h
    rw [clean_urlInput E s hc, Option.map_eq_some_iff] at h
    obtain ⟨⟨a, r⟩, h1, h2⟩ := h
    obtain ⟨e, hv⟩ := (splitScheme_iff s a r).mp h1
    rw [e, normUrl_append, normUrl_id a (fun x hx => (validScheme_char a hv x hx).2.2.2.2.2.1)]
    rw [show normUrl (':' :: r) = ':' :: normUrl r by rw [normUrl_eq, normUrl_eq]; rfl, getScheme_of_split E.U a _ hv, ← h2]
  cases ha with
  | fragment h1 h2 =>
    unfold browserScheme at hsc
    rw [clean_urlInput E s hc, Option.map_eq_some_iff] at hsc
    obtain ⟨⟨a, r⟩, h3, -⟩ := hsc
    obtain ⟨e, hv⟩ := (splitScheme_iff s a r).mp h3
    cases a with
    | nil => simp [isValidScheme] at hv
    | cons x a =>
      rw [e] at h2
      simp at h2
      exact absurd h2 (validScheme_char _ hv x (by simp)).2.2.2.1
  | resolved r0 h1 h2 h3 h4 _ =>
    have hv := (schemeName_iff r0).mp (hres r0 h1)
    have hva := validScheme_char r0 hv
    have hlow : E.U.lower r0 = lowerA r0 := E.U.lower_ascii _ (List.all_eq_true.mpr fun x hx => (hva x hx).2.2.2.2.2.2)
    rw [hlow] at hsc h3
    have hvl := lowerA_valid r0 hv
    have hin := resolved_input (lowerA r0) s hvl
    unfold browserScheme at hsc
    rw [hin, show lowerA r0 ++ c%":" ++ normUrl s = lowerA r0 ++ ':' :: normUrl s by simp,
      (splitScheme_iff _ _ _).mpr ⟨rfl, hvl⟩] at hsc
    simp only [Option.map_some, lowerA_idem, Option.some.injEq] at hsc
    rw [← hsc]; exact h3
  | bare sc' h1 h2 h3 h4 =>
    have := hsame sc hsc
    rw [h1] at this
    rw [← Option.some.inj this]; exact h2
  | absolute sc' h1 h2 h3 =>
    have := hsame sc hsc
    rw [h1] at this
    rw [← Option.some.inj this]; exact h2
  | relative h1 h2 h3 h4 =>
    have := hsame sc hsc
    rw [h1] at this
    simp at this

/-- C15: whatever scheme a browser sees in a kept URL is one of the allowed schemes. -/
theorem C15_scheme (E : UrlEnv) (rule : UrlRule) (tag attr : Str) (rel : Bool) (proxy : Option UrlProxy)
    (filter : Option UrlFilter) (value out : Str) (hres : ∀ r, rule.resolve = some r → SchemeName r)
    (hk : sanitizeUrl E rule tag attr .allow rel proxy filter value = some out) (sc : Str) (hsc : browserScheme out = some sc) :
    sc ∈ rule.schemes := by
  obtain ⟨s, hc, -, -, -, v, ha, hf⟩ := sanitizeUrl_accept E rule tag attr .allow rel proxy filter value out hk
  simp only [finishUrl, Option.some.injEq] at hf
  subst hf
  exact accept_scheme E rule .allow rel s v hc hres ha sc hsc

example : sanitizeUrl UrlEnv.sample { schemes := [c%"https"] } c%"a" c%"href" .allow true none none c%" HTTPS://Ex.org/ x " =
      some c%"HTTPS://Ex.org/ x" ∧ browserScheme c%"HTTPS://Ex.org/ x" = some c%"https" := by decide
example : sanitizeUrl UrlEnv.sample { schemes := [c%"https"] } c%"a" c%"href" .allow true none none c%"java script:alert(1)" = none ∧
    browserScheme c%" jAvA\nscript:alert(1)" = some c%"javascript" := by decide
example : SchemeName c%"https" := by unfold SchemeName; decide

/-- C16: a kept URL contains no ASCII control character and no backslash, and is never a network-path (`//host`) reference:
those are either resolved to an explicit scheme or refused. -/
theorem C16_characters (E : UrlEnv) (rule : UrlRule) (tag attr : Str) (rel : Bool) (proxy : Option UrlProxy)
    (filter : Option UrlFilter) (value out : Str) (hres : ∀ r, rule.resolve = some r → SchemeName r)
    (hk : sanitizeUrl E rule tag attr .allow rel proxy filter value = some out) :
    (∀ x ∈ out, 0x20 ≤ x.toNat ∧ x.toNat ≠ 0x7f ∧ x ≠ '\\') ∧ networkPath out = false := by
  obtain ⟨s, hc, hb, hne, -, v, ha, hf⟩ := sanitizeUrl_accept E rule tag attr .allow rel proxy filter value out hk
  simp only [finishUrl, Option.some.injEq] at hf
  subst hf
  have hs : ∀ x ∈ s, 0x20 ≤ x.toNat ∧ x.toNat ≠ 0x7f ∧ x ≠ '\\' := by
    intro x hx
    have := hc.noControl x hx
    simp only [isUrlControl, Bool.or_eq_false_iff, decide_eq_false_iff_not] at this
    refine ⟨by omega, by omega, ?_⟩
    rintro rfl; exact hb hx
  have hrel : startsWith c%"//" (normUrl s) = false → networkPath s = false := by
    intro h
    unfold networkPath
    rw [clean_urlInput E s hc]
    cases s with
    | nil => rfl
    | cons a r =>
      cases r with
      | nil => rfl
      | cons b r =>
        by_cases hab : (slash a && slash b) = true
        · exfalso
          simp only [slash, Bool.and_eq_true, Bool.or_eq_true, decide_eq_true_eq] at hab
          have ha' := (hs a (by simp)).2.2
          have hb' := (hs b (by simp)).2.2
          obtain ⟨h1 | h1, h2 | h2⟩ := hab
          · rw [h1, h2] at h
            rw [normUrl_eq] at h
            exact absurd h (by simp [startsWith, isUrlWs])
          all_goals contradiction
        · simpa using hab
  have hsch : ∀ sc, getScheme E.U (normUrl s) = some sc → startsWith c%"//" (normUrl s) = false := by
    intro sc h
    cases hst : startsWith c%"//" (normUrl s) with
    | false => rfl
    | true =>
      exfalso
      obtain ⟨t, ht⟩ := startsWith_iff.mp hst
      unfold getScheme at h
      have : schemeLikePrefix (normUrl s) = none ∨ ∃ p, schemeLikePrefix (normUrl s) = some ('/' :: p) := by
        unfold schemeLikePrefix
        rw [ht]
        split
        · exact .inl rfl
        · rename_i k hk
          split
          · exact .inl rfl
          · rename_i hk0
            dsimp only
            split
            · exact .inl rfl
            · right
              cases k with
              | zero => exact absurd rfl hk0
              | succ k => exact ⟨_, rfl⟩
      rcases this with e | ⟨p, e⟩
      · rw [e] at h; simp at h
      · rw [e] at h
        dsimp only at h
        rw [if_neg (by simp [isValidScheme, isAsciiAlpha, isLowerC, isUpperC])] at h
        simp at h
  cases ha with
  | fragment h1 h2 =>
    refine ⟨hs, ?_⟩
    unfold networkPath
    rw [clean_urlInput E s hc]
    cases s with
    | nil => rfl
    | cons a r =>
      simp at h2
      rw [h2]
      cases r with
      | nil => rfl
      | cons b r => rfl
  | resolved r0 h1 h2 h3 h4 _ =>
    have hv := (schemeName_iff r0).mp (hres r0 h1)
    have hva := validScheme_char r0 hv
    rw [E.U.lower_ascii _ (List.all_eq_true.mpr fun x hx => (hva x hx).2.2.2.2.2.2)]
    have hvl := lowerA_valid r0 hv
    constructor
    · intro x hx
      have hw := resolved_ws _ s hvl x hx
      simp only [isUrlWs, Bool.or_eq_false_iff, decide_eq_false_iff_not] at hw
      refine ⟨by omega, hw.2, ?_⟩
      rw [List.mem_append, List.mem_append] at hx
      rcases hx with (hx | hx) | hx
      · exact (validScheme_char _ hvl x hx).2.2.2.2.1
      · simp at hx; rw [hx]; decide
      · rw [normUrl_eq, List.mem_filter] at hx
        exact (hs x hx.1).2.2
    · unfold networkPath
      rw [resolved_input _ s hvl]
      cases hr : lowerA r0 with
      | nil => rw [hr] at hvl; simp [isValidScheme] at hvl
      | cons a r =>
        rw [hr] at hvl
        have := validScheme_char _ hvl a (by simp)
        have hsa : slash a = false := by simp [slash, this.2.1, this.2.2.2.2.1]
        simp only [List.cons_append, List.append_assoc]
        cases r with
        | nil => simp [hsa]
        | cons b r => simp [hsa]
  | bare sc h1 h2 h3 h4 => exact ⟨hs, hrel (hsch sc h1)⟩
  | absolute sc h1 h2 h3 => exact ⟨hs, hrel (hsch sc h1)⟩
  | relative h1 h2 h3 h4 => exact ⟨hs, hrel h3⟩

/-- C16: a kept URL without a scheme is a fragment reference permitted by the rule or a relative reference, and the latter
only when relative references are allowed. Partial: only for kept values without a space; see `C16_spaced_scheme_fails`. -/
theorem C16_relative_partial (E : UrlEnv) (rule : UrlRule) (tag attr : Str) (rel : Bool) (proxy : Option UrlProxy)
    (filter : Option UrlFilter) (value out : Str) (hres : ∀ r, rule.resolve = some r → SchemeName r)
    (hk : sanitizeUrl E rule tag attr .allow rel proxy filter value = some out) :
    (out.head? = some '#' → rule.allowFragment = true) ∧
    (browserScheme out = none → out.head? ≠ some '#' → ' ' ∉ out → rel = true) := by
  obtain ⟨s, hc, hb, hne, -, v, ha, hf⟩ := sanitizeUrl_accept E rule tag attr .allow rel proxy filter value out hk
  simp only [finishUrl, Option.some.injEq] at hf
  subst hf
  have hfrag : ∀ sc, getScheme E.U (normUrl s) = some sc → s.head? ≠ some '#' := by
    intro sc h e
    obtain ⟨c, r, hcr⟩ := List.exists_cons_of_ne_nil hne
    have hnc := clean_norm_cons E s hc c r hcr
    rw [hcr] at e
    simp at e
    unfold getScheme at h
    have : schemeLikePrefix (normUrl s) = none ∨ ∃ p, schemeLikePrefix (normUrl s) = some ('#' :: p) := by
      unfold schemeLikePrefix
      rw [hnc, e]
      split
      · exact .inl rfl
      · rename_i k hk
        split
        · exact .inl rfl
        · rename_i hk0
          dsimp only
          split
          · exact .inl rfl
          · right
            cases k with
            | zero => exact absurd rfl hk0
            | succ k => exact ⟨_, rfl⟩
    rcases this with e | ⟨p, e⟩
    · rw [e] at h; simp at h
    · rw [e] at h
      dsimp only at h
      rw [if_neg (by simp [isValidScheme, isAsciiAlpha, isLowerC, isUpperC])] at h
      simp at h
  cases ha with
  | fragment h1 h2 => exact ⟨fun _ => h1, fun _ h _ => absurd h2 h⟩
  | resolved r0 h1 h2 h3 h4 _ =>
    have hv := (schemeName_iff r0).mp (hres r0 h1)
    have hva := validScheme_char r0 hv
    rw [E.U.lower_ascii _ (List.all_eq_true.mpr fun x hx => (hva x hx).2.2.2.2.2.2)]
    have hvl := lowerA_valid r0 hv
    constructor
    · intro e
      exfalso
      cases hr : lowerA r0 with
      | nil => rw [hr] at hvl; simp [isValidScheme] at hvl
      | cons a r =>
        rw [hr] at hvl e
        simp at e
        exact (validScheme_char _ hvl a (by simp)).2.2.2.1 e
    · intro e
      exfalso
      unfold browserScheme at e
      rw [resolved_input _ s hvl, show lowerA r0 ++ c%":" ++ normUrl s = lowerA r0 ++ ':' :: normUrl s by simp,
        (splitScheme_iff _ _ _).mpr ⟨rfl, hvl⟩] at e
      simp at e
  | bare sc h1 h2 h3 h4 => exact ⟨fun e => absurd e (hfrag sc h1), fun _ _ _ => h4⟩
  | absolute sc h1 h2 h3 =>
    refine ⟨fun e => absurd e (hfrag sc h1), fun e _ hsp => ?_⟩
    exfalso
    have hn : normUrl s = s := by
      apply normUrl_id
      intro x hx
      have := hc.noControl x hx
      simp only [isUrlControl, Bool.or_eq_false_iff, decide_eq_false_iff_not] at this
      simp only [isUrlWs, Bool.or_eq_false_iff, decide_eq_false_iff_not]
      refine ⟨?_, this.2⟩
      intro h
      have : x = ' ' := by
        apply char_eq_of_toNat
        have : ' '.toNat = 32 := rfl
        omega
      exact hsp (this ▸ hx)
    rw [hn] at h1
    obtain ⟨a, r, e1, e2⟩ := getScheme_split E.U s sc h1
    unfold browserScheme at e
    rw [clean_urlInput E s hc, e1, (splitScheme_iff _ _ _).mpr ⟨rfl, e2⟩] at e
    simp at e
  | relative h1 h2 h3 h4 => exact ⟨fun e => absurd e h2, fun _ _ _ => h4⟩

/-- C16, counterexample: with `allow_relative=False` a value with a space inside an allowed scheme is kept, and a browser
reads it as a relative reference. -/
theorem C16_spaced_scheme_fails :
    sanitizeUrl UrlEnv.sample { schemes := [c%"https"] } c%"a" c%"href" .allow false none none c%"https ://x" = some c%"https ://x" ∧
    browserScheme c%"https ://x" = none := by decide

/-! ### C17 -/

theorem afterAt_mem (s : Str) (x : Char) (h : x ∈ afterAt s) : x ∈ s := by
  unfold afterAt at h
  rw [List.mem_reverse] at h
  have := (List.takeWhile_sublist _).mem h
  simpa using this

theorem portText_digits (p : Str) (h : portText p = true) : p = [] ∨ ∃ d, p = ':' :: d ∧ ∀ x ∈ d, isDigitC x = true := by
  unfold portText at h
  split at h
  · exact .inl rfl
  · rename_i d
    exact .inr ⟨d, rfl, fun x hx => List.all_eq_true.mp h x hx⟩
  · simp at h

theorem rsplit_colon (a d : Str) (hd : ':' ∉ d) : (((a ++ ':' :: d).reverse.dropWhile (· ≠ ':')).drop 1).reverse = a := by
  have : ∀ (x y : Str), ':' ∉ x → (x ++ ':' :: y).dropWhile (· ≠ ':') = ':' :: y := by
    intro x y hx
    induction x with
    | nil => simp
    | cons c x ih =>
      simp only [List.mem_cons, not_or] at hx
      rw [List.cons_append, List.dropWhile_cons, if_pos (by simpa using Ne.symm hx.1)]
      exact ih hx.2
  rw [show (a ++ ':' :: d).reverse = d.reverse ++ ':' :: a.reverse by simp, this _ _ (by simpa using hd)]
  simp

theorem lower_twice (U : Uni) (h : Str) (ha : ∀ x ∈ h, isAscii x = true) (hp : '%' ∉ h) (n : Str) (hi : (hostinfo n).1 = h) :
    U.lower (hostname U n) = lowerA h := by
  unfold hostname
  rw [hi]
  dsimp only
  rw [partitionC_none '%' h hp]
  dsimp only
  rw [if_neg (by simp), List.append_nil, U.lower_ascii h (List.all_eq_true.mpr ha), U.lower_ascii, lowerA_idem]
  rw [List.all_eq_true]
  intro x hx
  simp only [lowerA, List.mem_map] at hx
  obtain ⟨y, hy, rfl⟩ := hx
  rw [isAscii_lowerC]
  exact ha y hy

theorem drop_takeWhile (p : Char → Bool) (u : Str) : u.drop (u.takeWhile p).length = u.dropWhile p := by
  induction u with
  | nil => rfl
  | cons c u ih =>
    rw [List.takeWhile_cons, List.dropWhile_cons]
    split
    · simpa using ih
    · rfl

theorem hostMatches_spec (E : UrlEnv) (a s : Str) (hs : List Str) (hv : isValidScheme a = true)
    (hctl : ∀ x ∈ s, isUrlControl x = false) (hm : hostMatches E (a ++ ':' :: s) hs = true) :
    ∃ n t, s = '/' :: '/' :: (n ++ t) ∧ n ≠ [] ∧ (∀ x ∈ n, isUrlWs x = false ∧ x ≠ '/' ∧ x ≠ '?' ∧ x ≠ '#') ∧
      (∀ y, t.head? = some y → y = '/' ∨ y = '?' ∨ y = '#') ∧
      ∀ h, hostText (afterAt n) = some h → lowerA h ∈ hs ∧ (∀ x ∈ h, isAscii x = true) ∧ '%' ∉ h ∧
        (':' ∉ h → noncanonicalIpv4 E h = false) := by
  have hac := validScheme_char a hv
  have hne : a ≠ [] := by rintro rfl; simp [isValidScheme] at hv
  have hctl' : ∀ x ∈ a ++ ':' :: s, isUrlControl x = false := by
    intro x hx
    rw [List.mem_append, List.mem_cons] at hx
    rcases hx with hx | rfl | hx
    · exact ws_control x (hac x hx).2.2.2.2.2.1
    · rfl
    · exact hctl x hx
  unfold hostMatches urlsplitNetloc at hm
  have hl : lstripP (fun c => decide (c.toNat ≤ 0x20)) (a ++ ':' :: s) = a ++ ':' :: s := by
    obtain ⟨c, r, rfl⟩ := List.exists_cons_of_ne_nil hne
    unfold lstripP
    rw [List.cons_append, List.dropWhile_cons, if_neg]
    have := (hac c (by simp)).2.2.2.2.2.1
    simp only [isUrlWs, Bool.or_eq_false_iff, decide_eq_false_iff_not] at this
    simpa using this.1
  have hfil : (a ++ ':' :: s).filter (fun c => !(decide (c = '\t') || decide (c = '\n') || decide (c = '\r'))) = a ++ ':' :: s := by
    rw [List.filter_eq_self]
    intro c hc
    have := hctl' c hc
    simp only [isUrlControl, Bool.or_eq_false_iff, decide_eq_false_iff_not] at this
    simp only [Bool.not_eq_true', Bool.or_eq_false_iff, decide_eq_false_iff_not]
    have e1 : '\t'.toNat = 9 := rfl
    have e2 : '\n'.toNat = 10 := rfl
    have e3 : '\r'.toNat = 13 := rfl
    refine ⟨⟨?_, ?_⟩, ?_⟩ <;> rintro rfl <;> omega
  have hrest : urlRest (a ++ ':' :: s) = s := by
    unfold urlRest
    rw [find_char ':' a s (fun h => (hac _ h).1 rfl)]
    dsimp only
    rw [if_pos (by rw [List.take_left]; exact hv), List.drop_append]; simp
  dsimp only at hm
  rw [hl, hfil, hrest] at hm
  by_cases hsl : startsWith c%"//" s = true
  · rw [if_pos hsl] at hm
    obtain ⟨u, rfl⟩ := startsWith_iff.mp hsl
    rw [show List.drop 2 (c%"//" ++ u) = u from rfl] at hm
    generalize hn : u.takeWhile (fun c => decide (c ≠ '/') && decide (c ≠ '?') && decide (c ≠ '#')) = n at hm
    by_cases hok : E.netlocOk n = true
    · rw [if_pos hok] at hm
      dsimp only at hm
      by_cases hport : portOk (hostinfo n).2 = true
      · rw [if_neg (by simp [hport])] at hm
        by_cases hw : n.any isUrlWs = true
        · rw [if_pos hw] at hm; simp at hm
        rw [if_neg hw] at hm
        by_cases hraw : ((rawAuthorityHost n).isEmpty || !canonicalAsciiHost E (rawAuthorityHost n)) = true
        · rw [if_pos hraw] at hm; simp at hm
        rw [if_neg hraw] at hm
        simp only [Bool.and_eq_true, List.contains_iff_mem] at hm
        have hhost := hm.2
        simp only [Bool.or_eq_true, not_or, Bool.not_eq_true, Bool.not_eq_eq_eq_not, Bool.not_true] at hraw
        have hcan := hraw.2
        have hcan' : '%' ∉ rawAuthorityHost n ∧ (∀ x ∈ rawAuthorityHost n, isAscii x = true) ∧
            (':' ∉ rawAuthorityHost n → noncanonicalIpv4 E (rawAuthorityHost n) = false) := by
          unfold canonicalAsciiHost at hcan
          by_cases h1 : (rawAuthorityHost n).contains '%' = true
          · rw [if_pos h1] at hcan; simp at hcan
          rw [if_neg h1] at hcan
          by_cases h2 : (rawAuthorityHost n).any (fun c => decide (c.toNat > 0x7f)) = true
          · rw [if_pos h2] at hcan; simp at hcan
          rw [if_neg h2] at hcan
          refine ⟨by simpa using h1, ?_, ?_⟩
          · intro x hx
            simp only [Bool.not_eq_true, List.any_eq_false, decide_eq_true_eq] at h2
            rw [isAscii_iff]
            have := h2 x hx
            omega
          · intro h3
            rw [show (rawAuthorityHost n).contains ':' = false by simpa using h3] at hcan
            simpa using hcan
        refine ⟨n, u.drop n.length, ?_, ?_, ?_, ?_, ?_⟩
        · show '/' :: '/' :: u = _
          rw [← hn]
          congr 2
          exact (List.prefix_iff_eq_append.mp (List.takeWhile_prefix _)).symm
        · rintro rfl
          exact absurd hraw.1 (by simp [rawAuthorityHost, afterAt, startsWith])
        · intro x hx
          have h1 : isUrlWs x = false := by
            simp only [Bool.not_eq_true, List.any_eq_false] at hw
            simpa using hw x hx
          rw [← hn] at hx
          have := takeWhile_prop _ _ _ hx
          simp only [Bool.and_eq_true, decide_eq_true_eq] at this
          exact ⟨h1, this.1.1, this.1.2, this.2⟩
        · intro y hy
          have hd : u.drop n.length = u.dropWhile (fun c => decide (c ≠ '/') && decide (c ≠ '?') && decide (c ≠ '#')) := by
            rw [← hn]; exact drop_takeWhile _ _
          rw [hd] at hy
          have := dropWhile_hd _ _ _ hy
          simp only [Bool.and_eq_false_iff, decide_eq_false_iff_not, ne_eq, Decidable.not_not] at this
          rcases this with (h | h) | h
          · exact .inl h
          · exact .inr (.inl h)
          · exact .inr (.inr h)
        · intro h hh
          have key : (hostinfo n).1 = h ∧ rawAuthorityHost n = h := by
            unfold hostinfo rawAuthorityHost
            dsimp only
            generalize hq : afterAt n = q at hh ⊢
            unfold hostText at hh
            split at hh
            · rename_i r
              dsimp only at hh
              split at hh
              · rename_i p hdrop
                split at hh
                · simp only [Option.some.injEq] at hh
                  have hr : r = r.takeWhile (fun x => decide (x ≠ ']')) ++ ']' :: p := by
                    rw [← hdrop]
                    exact (List.prefix_iff_eq_append.mp (List.takeWhile_prefix _)).symm
                  have hni : ']' ∉ r.takeWhile (fun x => decide (x ≠ ']')) := by
                    intro hmem
                    have := takeWhile_prop _ _ _ hmem
                    simp at this
                  rw [hh] at hr hni
                  rw [show partitionC '[' ('[' :: r) = ([], true, r) from partitionC_found '[' [] r (by simp)]
                  dsimp only
                  rw [if_pos rfl, if_pos (by simp [startsWith]), List.drop_one, List.tail_cons, hr, partitionC_found ']' h p hni]
                  exact ⟨rfl, rfl⟩
                · simp at hh
              · simp at hh
            · rename_i hnb
              dsimp only at hh
              split at hh
              · simp at hh
              · rename_i hcond
                simp only [Option.some.injEq] at hh
                rw [hh] at hcond
                simp only [Bool.or_eq_true, not_or, Bool.not_eq_true, List.contains_eq_mem, decide_eq_false_iff_not,
                  Bool.not_eq_eq_eq_not, Bool.not_true] at hcond
                obtain ⟨⟨⟨h1, h2⟩, h3⟩, h4⟩ := hcond
                have hnc : ':' ∉ h := by
                  intro hmem
                  rw [← hh] at hmem
                  have := takeWhile_prop _ _ _ hmem
                  simp at this
                have hqe : q = h ++ q.drop h.length := by
                  rw [← hh]
                  exact (List.prefix_iff_eq_append.mp (List.takeWhile_prefix _)).symm
                have hst : startsWith c%"[" q = false := by
                  cases hst : startsWith c%"[" q with
                  | false => rfl
                  | true =>
                    obtain ⟨t, ht⟩ := startsWith_iff.mp hst
                    exact absurd ht (hnb t)
                rcases portText_digits _ (by simpa using h4) with hp | ⟨d, hp, hd⟩
                · rw [hp, List.append_nil] at hqe
                  subst hqe
                  rw [partitionC_none '[' q h2, hst, partitionC_none ':' q hnc]
                  dsimp only
                  rw [if_neg (by simp), if_neg (by simp), if_neg (by simpa using hnc)]
                  exact ⟨rfl, rfl⟩
                · have hdc : ':' ∉ d := fun hm => absurd (hd _ hm) (by decide)
                  have hdb : '[' ∉ d := fun hm => absurd (hd _ hm) (by decide)
                  rw [hp] at hqe
                  rw [hst, hqe, partitionC_none '[' _ (by simp [h2, hdb]), partitionC_found ':' h d hnc]
                  dsimp only
                  rw [if_neg (by simp), if_neg (by simp), if_pos (by simp), rsplit_colon h d hdc]
                  exact ⟨rfl, rfl⟩
          obtain ⟨k1, k2⟩ := key
          rw [k2] at hcan'
          refine ⟨?_, hcan'.2.1, hcan'.1, hcan'.2.2⟩
          rw [← lower_twice E.U h hcan'.2.1 hcan'.1 n k1]
          exact hhost
      · rw [if_pos (by simpa using hport)] at hm; simp at hm
    · rw [if_neg hok] at hm; simp at hm
  · rw [if_neg hsl] at hm
    by_cases hok : E.netlocOk [] = true
    · rw [if_pos hok] at hm
      dsimp only at hm
      simp [rawAuthorityHost, afterAt, startsWith, hostinfo, partitionC, portOk] at hm
    · rw [if_neg hok] at hm; simp at hm

theorem accept_host (E : UrlEnv) (rule : UrlRule) (h : UrlHandling) (rel : Bool) (s v : Str) (hc : Clean E s) (hb : '\\' ∉ s)
    (hres : ∀ r, rule.resolve = some r → SchemeName r) (ha : Accept E rule h rel s v) (hs : List Str) (hho : rule.hosts = some hs)
    (host : Str) (hbh : browserHost v = some host) : host ∈ hs ∧ ∀ x ∈ host, isAscii x = true ∧ x ≠ '%' := by
  have fin : ∀ (a n t : Str), isValidScheme a = true → n ≠ [] → (∀ x ∈ n, x ≠ '/' ∧ x ≠ '?' ∧ x ≠ '#' ∧ x ≠ '\\') →
      (∀ y, t.head? = some y → y = '/' ∨ y = '?' ∨ y = '#') →
      urlInput v = a ++ ':' :: '/' :: '/' :: (n ++ t) →
      (∀ h, hostText (afterAt n) = some h → lowerA h ∈ hs ∧ (∀ x ∈ h, isAscii x = true) ∧ '%' ∉ h) →
      host ∈ hs ∧ ∀ x ∈ host, isAscii x = true ∧ x ≠ '%' := by
    intro a n t hv hn hnc ht hin hh
    unfold browserHost at hbh
    rw [hin, (splitScheme_iff _ a _).mpr ⟨rfl, hv⟩] at hbh
    dsimp only at hbh
    obtain ⟨c, r, rfl⟩ := List.exists_cons_of_ne_nil hn
    have hcs : slash c = false := by
      have := hnc c (by simp)
      simp [slash, this.1, this.2.2.2]
    rw [List.dropWhile_cons, if_pos (by rfl), List.dropWhile_cons, if_pos (by rfl), List.cons_append, List.dropWhile_cons,
      if_neg (by simp [hcs]), ← List.cons_append] at hbh
    have htw : ((c :: r) ++ t).takeWhile (fun c => !(slash c || decide (c = '?') || decide (c = '#'))) = c :: r := by
      have hp : ∀ x ∈ c :: r, (!(slash x || decide (x = '?') || decide (x = '#'))) = true := by
        intro x hx
        have := hnc x hx
        simp [slash, this.1, this.2.1, this.2.2.1, this.2.2.2]
      cases t with
      | nil => rw [List.append_nil]; exact takeWhile_all _ _ hp
      | cons y t =>
        refine takeWhile_append_stopU _ _ _ _ hp ?_
        rcases ht y rfl with rfl | rfl | rfl <;> rfl
    rw [htw, Option.map_eq_some_iff] at hbh
    obtain ⟨h, h1, h2⟩ := hbh
    obtain ⟨k1, k2, k3⟩ := hh h h1
    rw [← h2]
    refine ⟨k1, ?_⟩
    intro x hx
    simp only [lowerA, List.mem_map] at hx
    obtain ⟨y, hy, rfl⟩ := hx
    refine ⟨by rw [isAscii_lowerC]; exact k2 y hy, ?_⟩
    intro e
    have := lowerC_eq_nonletter (by decide) e
    exact k3 (this ▸ hy)
  have hsplit : ∀ a r, splitScheme (urlInput v) = some (a, r) → urlInput v = a ++ ':' :: r ∧ isValidScheme a = true :=
    fun a r h => (splitScheme_iff _ a r).mp h
  have hnone : splitScheme (urlInput v) ≠ none := by
    intro e
    unfold browserHost at hbh
    rw [e] at hbh
    simp at hbh
  cases hsp : splitScheme (urlInput v) with
  | none => exact absurd hsp hnone
  | some ar =>
  obtain ⟨a, r⟩ := ar
  obtain ⟨e1, e2⟩ := hsplit a r hsp
  have hbs : browserScheme v = some (lowerA a) := by unfold browserScheme; rw [hsp]; rfl
  have hsame : browserScheme s = some (lowerA a) → getScheme E.U (normUrl s) ≠ none := by
    intro h
    unfold browserScheme at h
    rw [clean_urlInput E s hc, Option.map_eq_some_iff] at h
    obtain ⟨⟨a, r⟩, h1, h2⟩ := h
    obtain ⟨e, hv⟩ := (splitScheme_iff s a r).mp h1
    rw [e, normUrl_append, normUrl_id a (fun x hx => (validScheme_char a hv x hx).2.2.2.2.2.1)]
    rw [show normUrl (':' :: r) = ':' :: normUrl r by rw [normUrl_eq, normUrl_eq]; rfl, getScheme_of_split E.U a _ hv]
    simp
  cases ha with
  | fragment h1 h2 =>
    exfalso
    rw [clean_urlInput E s hc] at e1
    cases a with
    | nil => simp [isValidScheme] at e2
    | cons x a =>
      rw [e1] at h2
      simp at h2
      exact absurd h2 (validScheme_char _ e2 x (by simp)).2.2.2.1
  | resolved r0 h1 h2 h3 h4 h5 =>
    have hv := (schemeName_iff r0).mp (hres r0 h1)
    have hva := validScheme_char r0 hv
    have hlow : E.U.lower r0 = lowerA r0 := E.U.lower_ascii _ (List.all_eq_true.mpr fun x hx => (hva x hx).2.2.2.2.2.2)
    have hvl := lowerA_valid r0 hv
    have hm := h5 hs hho
    rw [hlow] at hm fin
    rw [List.append_assoc] at hm
    obtain ⟨n, t, k1, k2, k3, k4, k5⟩ := hostMatches_spec E _ s hs hvl hc.noControl hm
    refine fin (lowerA r0) n (normUrl t) hvl k2 ?_ ?_ ?_ ?_
    · intro x hx
      refine ⟨(k3 x hx).2.1, (k3 x hx).2.2.1, (k3 x hx).2.2.2, ?_⟩
      rintro rfl
      exact hb (by rw [k1]; simp [hx])
    · intro y hy
      cases t with
      | nil => simp [normUrl_eq] at hy
      | cons z t =>
        have hz := k4 z rfl
        have : normUrl (z :: t) = z :: normUrl t := by
          rw [normUrl_eq, normUrl_eq]
          rcases hz with rfl | rfl | rfl <;> rfl
        rw [this] at hy
        simp at hy
        rw [← hy]; exact hz
    · rw [resolved_input _ s hvl, k1]
      rw [show ('/' :: '/' :: (n ++ t) : Str) = c%"//" ++ n ++ t by simp, normUrl_append, normUrl_append,
        normUrl_id n (fun x hx => (k3 x hx).1)]
      simp [normUrl_eq, isUrlWs]
    · intro h hh
      exact ⟨(k5 h hh).1, (k5 h hh).2.1, (k5 h hh).2.2.1⟩
  | bare sc h1 h2 h3 h4 => rw [h3] at hho; simp at hho
  | absolute sc h1 h2 h3 =>
    have hm := h3 hs hho
    rw [clean_urlInput E s hc] at e1
    have hcr : ∀ x ∈ r, isUrlControl x = false := fun x hx => hc.noControl x (by rw [e1]; simp [hx])
    rw [e1] at hm
    obtain ⟨n, t, k1, k2, k3, k4, k5⟩ := hostMatches_spec E a r hs e2 hcr hm
    refine fin a n t e2 k2 ?_ k4 ?_ ?_
    · intro x hx
      refine ⟨(k3 x hx).2.1, (k3 x hx).2.2.1, (k3 x hx).2.2.2, ?_⟩
      rintro rfl
      exact hb (by rw [e1, k1]; simp [hx])
    · rw [clean_urlInput E s hc, e1, k1]
    · intro h hh
      exact ⟨(k5 h hh).1, (k5 h hh).2.1, (k5 h hh).2.2.1⟩
  | relative h1 h2 h3 h4 => exact absurd h1 (hsame hbs)

/-- C17: with a host allowlist, whenever a browser finds a host in a kept URL, that host (lower-cased) is in the list; it is
plain ASCII without percent escapes, so no further decoding changes it. -/
theorem C17_hosts (E : UrlEnv) (rule : UrlRule) (tag attr : Str) (rel : Bool) (proxy : Option UrlProxy)
    (filter : Option UrlFilter) (value out : Str) (hres : ∀ r, rule.resolve = some r → SchemeName r) (hs : List Str)
    (hho : rule.hosts = some hs) (hk : sanitizeUrl E rule tag attr .allow rel proxy filter value = some out)
    (host : Str) (hbh : browserHost out = some host) : host ∈ hs ∧ ∀ x ∈ host, isAscii x = true ∧ x ≠ '%' := by
  obtain ⟨s, hc, hb, -, -, v, ha, hf⟩ := sanitizeUrl_accept E rule tag attr .allow rel proxy filter value out hk
  simp only [finishUrl, Option.some.injEq] at hf
  subst hf
  exact accept_host E rule .allow rel s v hc hb hres ha hs hho host hbh

example : sanitizeUrl UrlEnv.sample { schemes := [c%"https"], hosts := some [c%"ok.org"] } c%"a" c%"href" .allow true none none
      c%"//u:p@OK.org:443/x" = some c%"https://u:p@OK.org:443/x" ∧ browserHost c%"https://u:p@OK.org:443/x" = some c%"ok.org" := by decide
example : sanitizeUrl UrlEnv.sample { schemes := [c%"https"], hosts := some [c%"ok.org"] } c%"a" c%"href" .allow true none none
      c%"https://ok.org@evil.org/" = none ∧ browserHost c%"https:/\\/ok.org@evil.org/" = some c%"evil.org" := by decide

/-! ### C18 -/

/-- C18: a rule whose handling is `strip` keeps nothing. -/
theorem C18_strip (E : UrlEnv) (rule : UrlRule) (tag attr : Str) (rel : Bool) (proxy : Option UrlProxy) (filter : Option UrlFilter)
    (value : Str) : sanitizeUrl E rule tag attr .strip rel proxy filter value = none := by
  cases hk : sanitizeUrl E rule tag attr .strip rel proxy filter value with
  | none => rfl
  | some out =>
    obtain ⟨s, -, -, -, -, v, -, hf⟩ := sanitizeUrl_accept E rule tag attr .strip rel proxy filter value out hk
    simp [finishUrl] at hf

theorem checkStripped_proxy (E : UrlEnv) (rule : UrlRule) (rel : Bool) (proxy proxy' : Option UrlProxy) (s out : Str)
    (hk : checkStripped E rule .proxy rel proxy s = some out) :
    ∃ p v, proxy = some p ∧ checkStripped E rule .allow rel proxy' s = some v ∧ out = proxyUrl p v := by
  have fin : ∀ v, finishUrl .proxy proxy v = some out → ∃ p, proxy = some p ∧ out = proxyUrl p v := by
    intro v h
    unfold finishUrl at h
    cases proxy with
    | none => simp at h
    | some p => simp at h; exact ⟨p, rfl, h.symm⟩
  unfold checkStripped at hk ⊢
  dsimp only at hk ⊢
  rw [Option.ite_none_left_eq_some] at hk
  rw [if_neg hk.1]
  replace hk := hk.2
  rw [Option.ite_none_left_eq_some] at hk
  rw [if_neg hk.1]
  replace hk := hk.2
  rw [Option.ite_none_left_eq_some] at hk
  rw [if_neg hk.1]
  replace hk := hk.2
  by_cases h1 : startsWith c%"#" (normUrl s) = true
  · rw [if_pos h1, Option.ite_none_left_eq_some] at hk
    rw [if_pos h1, if_neg hk.1]
    obtain ⟨p, e1, e2⟩ := fin _ hk.2
    exact ⟨p, s, e1, rfl, e2⟩
  rw [if_neg h1, Option.ite_none_left_eq_some] at hk
  rw [if_neg h1, if_neg (by simp)]
  replace hk := hk.2
  by_cases h2 : startsWith c%"//" (normUrl s) = true
  · rw [if_pos h2] at hk ⊢
    cases hr : rule.resolve with
    | none => rw [hr] at hk; simp at hk
    | some r0 =>
      rw [hr] at hk
      dsimp only at hk ⊢
      rw [Option.ite_none_left_eq_some, Option.ite_none_left_eq_some] at hk
      rw [if_neg hk.1, if_neg hk.2.1]
      replace hk := hk.2.2
      rw [Option.ite_none_left_eq_some] at hk
      rw [if_neg hk.1]
      obtain ⟨p, e1, e2⟩ := fin _ hk.2
      exact ⟨p, _, e1, rfl, e2⟩
  rw [if_neg h2] at hk ⊢
  cases hg : getScheme E.U (normUrl s) with
  | none =>
    rw [hg] at hk
    dsimp only at hk ⊢
    rw [Option.ite_none_left_eq_some] at hk
    rw [if_neg hk.1]
    obtain ⟨p, e1, e2⟩ := fin _ hk.2
    exact ⟨p, _, e1, rfl, e2⟩
  | some sc =>
    rw [hg] at hk
    dsimp only at hk ⊢
    rw [Option.ite_none_left_eq_some] at hk
    rw [if_neg hk.1]
    replace hk := hk.2
    by_cases h3 : ((decide (sc = c%"http") || decide (sc = c%"https")) && !startsWith (sc ++ c%"://") (normUrl s)) = true
    · rw [if_pos h3] at hk ⊢
      rw [Option.ite_none_left_eq_some, Option.ite_none_left_eq_some] at hk
      rw [if_neg hk.1, if_neg hk.2.1]
      obtain ⟨p, e1, e2⟩ := fin _ hk.2.2
      exact ⟨p, _, e1, rfl, e2⟩
    · rw [if_neg h3] at hk ⊢
      rw [Option.ite_none_left_eq_some] at hk
      rw [if_neg hk.1]
      obtain ⟨p, e1, e2⟩ := fin _ hk.2
      exact ⟨p, _, e1, rfl, e2⟩

theorem quote_none_char (v : Str) (x : Char) (h : x ∈ urlQuote (fun _ => false) v) :
    alwaysSafe x = true ∨ x = '%' ∨ isDigitC x = true ∨ ('A' ≤ x ∧ x ≤ 'F') := by
  rcases urlQuote_chars (fun _ => false) v x h with h | h | h | h
  · exact .inl h
  · simp at h
  · exact .inr (.inl h)
  · exact .inr (.inr h)

theorem quote_none_not (v : Str) (x : Char) (h : x ∈ urlQuote (fun _ => false) v) :
    x ≠ '&' ∧ x ≠ '=' ∧ x ≠ '#' ∧ x ≠ '?' ∧ x ≠ ':' ∧ x ≠ '/' ∧ x ≠ '\\' ∧ isUrlWs x = false ∧ x ≠ ',' ∧ x ≠ '\'' ∧ x ≠ '"' ∧ x ≠ '(' ∧ x ≠ ')' ∧
      x ≠ ';' ∧ isAscii x = true := by
  have hx : ((48 ≤ x.toNat ∧ x.toNat ≤ 57) ∨ (65 ≤ x.toNat ∧ x.toNat ≤ 90) ∨ (97 ≤ x.toNat ∧ x.toNat ≤ 122)) ∨
      x.toNat = 95 ∨ x.toNat = 46 ∨ x.toNat = 45 ∨ x.toNat = 126 ∨ x.toNat = 37 := by
    rcases quote_none_char v x h with h | rfl | h | h
    · simp only [alwaysSafe, isAsciiAlpha, Bool.or_eq_true, decide_eq_true_eq, isLowerC_iff, isUpperC_iff, isDigitC_iff] at h
      rcases h with ((((h | h) | rfl) | rfl) | rfl) | rfl
      · omega
      · omega
      all_goals simp
    · simp
    · rw [isDigitC_iff] at h; omega
    · have h1 : 65 ≤ x.toNat := h.1
      have h2 : x.toNat ≤ 70 := h.2
      omega
  have lit : ∀ c : Char, x = c → x.toNat = c.toNat := fun c e => by rw [e]
  refine ⟨?_, ?_, ?_, ?_, ?_, ?_, ?_, ?_, ?_, ?_, ?_, ?_, ?_, ?_, ?_⟩
  case refine_8 => simp only [isUrlWs, Bool.or_eq_false_iff, decide_eq_false_iff_not]; omega
  case refine_15 => rw [isAscii_iff]; omega
  all_goals
    intro e
    have e' := lit _ e
    simp at e'
    omega

theorem splitC_append_sep (sep : Char) (a b : Str) : splitC sep (a ++ sep :: b) = splitC sep a ++ splitC sep b := by
  induction a with
  | nil =>
    simp only [List.nil_append, splitC]
    cases h : splitC sep b with
    | nil => exact absurd h (splitC_ne_nil sep b)
    | cons w ws => simp
  | cons c a ih =>
    simp only [List.cons_append, splitC]
    rw [ih]
    cases h : splitC sep a with
    | nil => exact absurd h (splitC_ne_nil sep a)
    | cons w ws =>
      simp only [List.cons_append]
      split <;> simp

theorem splitC_none (sep : Char) (s : Str) (h : sep ∉ s) : splitC sep s = [s] := by
  induction s with
  | nil => rfl
  | cons c s ih =>
    simp only [List.mem_cons, not_or] at h
    simp only [splitC]
    rw [ih h.2]
    simp [Ne.symm h.1]

theorem dropWhile_append_stop (p : Char → Bool) (a : Str) (c : Char) (r : Str) (ha : ∀ x ∈ a, p x = true) (hc : p c = false) :
    (a ++ c :: r).dropWhile p = c :: r := by
  induction a with
  | nil => simp [hc]
  | cons x a ih =>
    rw [List.cons_append, List.dropWhile_cons, if_pos (ha x (by simp)), ih (fun y hy => ha y (by simp [hy]))]

/-- C18: with proxy handling, every kept value is a URL of the configured proxy whose last query parameter, percent-decoded, is
the URL that would have been kept without the proxy, under the configured parameter name. (For a proxy URL without `#`.) -/
theorem C18_proxy (E : UrlEnv) (rule : UrlRule) (tag attr : Str) (rel : Bool) (proxy : Option UrlProxy) (filter : Option UrlFilter)
    (value out : Str) (hk : sanitizeUrl E rule tag attr .proxy rel proxy filter value = some out) :
    ∃ p v, proxy = some p ∧ sanitizeUrl E rule tag attr .allow rel none filter value = some v ∧ p.url <+: out ∧
      ('#' ∉ p.url → ∃ k q, (queryPairs out).getLast? = some (k, q) ∧
        (percentDecode k).bind utf8Decode = some p.param ∧ (percentDecode q).bind utf8Decode = some v) := by
  unfold sanitizeUrl at hk ⊢
  split at hk
  · simp at hk
  · obtain ⟨p, v, e1, e2, e3⟩ := checkStripped_proxy E rule rel proxy none _ out hk
    refine ⟨p, v, e1, e2, ?_, ?_⟩
    · rw [e3]; unfold proxyUrl; simp only [List.append_assoc]; exact List.prefix_append _ _
    · intro hh
      refine ⟨urlQuote (fun _ => false) p.param, urlQuote (fun _ => false) v, ?_, urlQuote_roundtrip _ rfl _, urlQuote_roundtrip _ rfl _⟩
      have hlast : ∀ pre : Str, (splitC '&' (pre ++ (urlQuote (fun _ => false) p.param ++ c%"=" ++ urlQuote (fun _ => false) v))).map
            (fun piece => ((partitionC '=' piece).1, (partitionC '=' piece).2.2)) =
          (splitC '&' (pre ++ (urlQuote (fun _ => false) p.param ++ c%"=" ++ urlQuote (fun _ => false) v))).map
            (fun piece => ((partitionC '=' piece).1, (partitionC '=' piece).2.2)) := fun _ => rfl
      have hpk : ∀ x ∈ urlQuote (fun _ => false) p.param ++ c%"=" ++ urlQuote (fun _ => false) v, x ≠ '&' ∧ x ≠ '#' ∧ x ≠ '?' := by
        intro x hx
        rw [List.mem_append, List.mem_append] at hx
        rcases hx with (hx | hx) | hx
        · have := quote_none_not _ x hx
          exact ⟨this.1, this.2.2.1, this.2.2.2.1⟩
        · simp at hx; rw [hx]; decide
        · have := quote_none_not _ x hx
          exact ⟨this.1, this.2.2.1, this.2.2.2.1⟩
      have hpair : partitionC '=' (urlQuote (fun _ => false) p.param ++ c%"=" ++ urlQuote (fun _ => false) v) =
          (urlQuote (fun _ => false) p.param, true, urlQuote (fun _ => false) v) := by
        rw [List.append_assoc]
        exact partitionC_found '=' _ _ (fun hm => (quote_none_not _ _ hm).2.1 rfl)
      generalize hG : urlQuote (fun _ => false) p.param ++ c%"=" ++ urlQuote (fun _ => false) v = G at hpk hpair
      have hout : out = p.url ++ (if p.url.contains '?' then c%"&" else c%"?") ++ G := by
        rw [e3, ← hG]; unfold proxyUrl; simp only [List.append_assoc]
      have hsG : splitC '&' G = [G] := splitC_none '&' G (fun hm => (hpk _ hm).1 rfl)
      unfold queryPairs
      dsimp only
      have hnf : out.takeWhile (fun x => decide (x ≠ '#')) = out := by
        apply takeWhile_all
        intro x hx
        rw [hout, List.mem_append, List.mem_append] at hx
        simp only [decide_eq_true_eq]
        rcases hx with (hx | hx) | hx
        · rintro rfl; exact hh hx
        · split at hx <;> · simp at hx; rw [hx]; decide
        · exact (hpk x hx).2.1
      rw [hnf, hout]
      by_cases hq : '?' ∈ p.url
      · rw [if_pos (by simpa using hq)]
        obtain ⟨a, b, hab, ha⟩ := mem_split_first '?' p.url hq
        rw [hab, show a ++ '?' :: b ++ c%"&" ++ G = a ++ '?' :: (b ++ '&' :: G) by simp,
          dropWhile_append_stop _ a '?' _ (by intro x hx; simp only [decide_eq_true_eq]; rintro rfl; exact ha hx) (by simp),
          List.drop_one, List.tail_cons, splitC_append_sep, hsG, List.map_append, List.getLast?_append]
        simp [hpair]
      · rw [if_neg (by simpa using hq), show p.url ++ c%"?" ++ G = p.url ++ '?' :: G by simp,
          dropWhile_append_stop _ p.url '?' _ (by intro x hx; simp only [decide_eq_true_eq]; rintro rfl; exact hq hx) (by simp),
          List.drop_one, List.tail_cons, hsG]
        simp [hpair]

example : sanitizeUrl UrlEnv.sample { schemes := [c%"https"] } c%"img" c%"src" .proxy true (some ⟨c%"/p?k=1", c%"url"⟩) none c%" https://x/?a&b " =
    some c%"/p?k=1&url=https%3A%2F%2Fx%2F%3Fa%26b" := by decide

/-- A UTF-8 decoder, for the examples. -/
def sampleDec (bytes : List Nat) : Str := (utf8Decode bytes).getD c%"?"

/-- C18, counterexample: a proxy URL ending in an empty fragment is accepted by `UrlProxy`, and then the original URL ends up in
the fragment, which is never sent to the proxy. -/
theorem C18_empty_fragment_fails :
    validProxy UrlEnv.sample sampleDec c%"https://p/#" c%"url" = some ⟨c%"https://p/#", c%"url"⟩ ∧
    sanitizeUrl UrlEnv.sample { schemes := [c%"https"] } c%"img" c%"src" .proxy true (some ⟨c%"https://p/#", c%"url"⟩) none c%"https://x/" =
      some c%"https://p/#?url=https%3A%2F%2Fx%2F" ∧
    queryPairs c%"https://p/#?url=https%3A%2F%2Fx%2F" = [([], [])] := by decide

/-- C18: a value sent through a proxy accepted by `UrlProxy` is http, https or relative to the page, and never a network-path
reference (for a proxy URL without invisible characters). -/
theorem C18_proxy_scheme (E : UrlEnv) (dec : List Nat → Str) (url param : Str) (p : UrlProxy) (hp : validProxy E dec url param = some p)
    (hinv : ∀ x ∈ url, ¬ Invisible x) (v : Str) : (∀ sc, browserScheme (proxyUrl p v) = some sc → sc = c%"http" ∨ sc = c%"https") ∧ networkPath (proxyUrl p v) = false := by
  unfold validProxy at hp
  dsimp only at hp
  rw [Option.ite_none_left_eq_some] at hp
  replace hp := hp.2
  rw [Option.ite_none_left_eq_some] at hp
  replace hp := hp.2
  rw [Option.ite_none_left_eq_some] at hp
  replace hp := hp.2
  rw [Option.ite_none_left_eq_some] at hp
  replace hp := hp.2
  rw [Option.ite_none_left_eq_some] at hp
  replace hp := hp.2
  rw [Option.ite_none_left_eq_some] at hp
  obtain ⟨hs, hp⟩ := hp
  simp only [Option.some.injEq] at hp
  generalize hu : stripP E.U.isSpace url = u at hs hp
  cases hr : sanitizeUrl E { resolve := none, schemes := [c%"http", c%"https"] } c%"*" c%"urlproxy" .allow true none none u with
  | none => rw [hr] at hs; simp at hs
  | some o =>
    have h1 := C16_characters E _ _ _ _ _ _ _ _ (by simp) hr
    have h2 := C15_scheme E _ _ _ _ _ _ _ _ (by simp) hr
    have hou : o = u := by
      unfold sanitizeUrl at hr
      dsimp only at hr
      have hsu : stripInvisible u = u := by
        classical
        rw [C55_exact, List.filter_eq_self]
        intro c hc
        simpa using hinv c (stripP_sub _ _ _ (by rw [hu]; exact hc))
      rw [hsu, show stripP E.U.isSpace u = u by rw [← hu]; exact stripP_stripP _ _] at hr
      obtain ⟨-, -, -, -, w, ha, hf⟩ := checkStripped_accept E _ _ _ _ u o (by rw [← hu]; exact stripP_head _ _)
        (by rw [← hu]; exact stripP_last _ _) hr
      simp only [finishUrl, Option.some.injEq] at hf
      subst hf
      cases ha with
      | resolved r0 hr0 => simp at hr0
      | _ => rfl
    have hcl : Clean E u ∧ u ≠ [] := by
      obtain ⟨s, hc, -, hne, -, w, ha, hf⟩ := sanitizeUrl_accept E _ _ _ _ _ _ _ _ _ hr
      simp only [finishUrl, Option.some.injEq] at hf
      rw [← hou, ← hf]
      cases ha with
      | resolved r0 hr0 => simp at hr0
      | fragment => exact ⟨hc, hne⟩
      | bare => exact ⟨hc, hne⟩
      | absolute => exact ⟨hc, hne⟩
      | relative => exact ⟨hc, hne⟩
    rw [hou] at h1 h2
    obtain ⟨hcl, hune⟩ := hcl
    have hpe : ∃ c t, proxyUrl p v = u ++ c :: t ∧ (c = '?' ∨ c = '&') ∧ ∀ x ∈ c :: t, isUrlWs x = false ∧ x ≠ ':' := by
      rw [← hp]
      unfold proxyUrl
      dsimp only
      have tail : ∀ c, (c = '?' ∨ c = '&') → ∀ x ∈ c :: (urlQuote (fun _ => false) param ++ c%"=" ++ urlQuote (fun _ => false) v),
          isUrlWs x = false ∧ x ≠ ':' := by
        intro c hc x hx
        rw [List.mem_cons, List.mem_append, List.mem_append] at hx
        rcases hx with hx | (hx | hx) | hx
        · rw [hx]; rcases hc with rfl | rfl <;> decide
        · exact ⟨(quote_none_not _ x hx).2.2.2.2.2.2.2.1, (quote_none_not _ x hx).2.2.2.2.1⟩
        · simp at hx; rw [hx]; decide
        · exact ⟨(quote_none_not _ x hx).2.2.2.2.2.2.2.1, (quote_none_not _ x hx).2.2.2.2.1⟩
      by_cases hq : u.contains '?' = true
      · rw [if_pos hq]
        exact ⟨'&', urlQuote (fun _ => false) param ++ c%"=" ++ urlQuote (fun _ => false) v, by simp, .inr rfl, tail _ (.inr rfl)⟩
      · rw [if_neg hq]
        exact ⟨'?', urlQuote (fun _ => false) param ++ c%"=" ++ urlQuote (fun _ => false) v, by simp, .inl rfl, tail _ (.inl rfl)⟩
    obtain ⟨c, t, hpe, hc, ht⟩ := hpe
    have hin : urlInput (u ++ c :: t) = u ++ c :: t := by
      apply urlInput_id
      · intro x hx
        rcases List.mem_append.mp hx with hx | hx
        · exact hcl.noControl x hx
        · exact ws_control x (ht x hx).1
      · intro y hy
        obtain ⟨d, r, hd⟩ := List.exists_cons_of_ne_nil hune
        rw [hd] at hy
        simp at hy
        rw [← hy]
        exact clean_edge E d (hcl.noControl d (by rw [hd]; simp)) (hcl.head d (by rw [hd]; rfl))
      · intro y hy
        rw [List.getLast?_append] at hy
        cases hl : (c :: t).getLast? with
        | none => simp at hl
        | some z =>
          rw [hl] at hy
          simp at hy
          rw [← hy]
          exact (ht z (List.mem_of_getLast? hl)).1
    rw [hpe]
    constructor
    · intro sc hsc
      unfold browserScheme at hsc
      rw [hin, Option.map_eq_some_iff] at hsc
      obtain ⟨⟨a, r⟩, k1, k2⟩ := hsc
      obtain ⟨e, hv⟩ := (splitScheme_iff _ a r).mp k1
      have hcm : ':' ∈ u := by
        have : ':' ∈ u ++ c :: t := by rw [e]; simp
        rcases List.mem_append.mp this with h | h
        · exact h
        · exact absurd rfl (ht _ h).2
      obtain ⟨a', r', e', ha'⟩ := mem_split_first ':' u hcm
      have haa : a = a' := by
        have hna : ':' ∉ a := fun h => (validScheme_char a hv _ h).1 rfl
        have e2 : partitionC ':' (u ++ c :: t) = (a, true, r) := by rw [e]; exact partitionC_found ':' a r hna
        have e3 : partitionC ':' (u ++ c :: t) = (a', true, r' ++ c :: t) := by
          rw [e', List.append_assoc, List.cons_append]; exact partitionC_found ':' a' _ ha'
        rw [e2] at e3
        exact (Prod.mk.inj e3).1
      have := h2 sc (by
        unfold browserScheme
        rw [clean_urlInput E u hcl, (splitScheme_iff u a r').mpr ⟨by rw [haa]; exact e', hv⟩]
        simpa using k2)
      simpa using this
    · have h3 := h1.2
      unfold networkPath at h3 ⊢
      rw [clean_urlInput E u hcl] at h3
      rw [hin]
      cases u with
      | nil => exact absurd rfl hune
      | cons d r =>
        cases r with
        | nil =>
          simp only [List.cons_append, List.nil_append]
          rcases hc with rfl | rfl <;> simp [slash]
        | cons d' r => exact h3

example : validProxy UrlEnv.sample sampleDec c%" https://p/?a=1 " c%"url" = some ⟨c%"https://p/?a=1", c%"url"⟩ := by decide
example : validProxy UrlEnv.sample sampleDec c%"javascript:x" c%"url" = none := by decide

/-! ### C21 -/

/-- C21, counterexample: the fast path keeps a URL with a backslash that the complete check refuses. -/
theorem C21_backslash_fails :
    fastUrl UrlEnv.sample { schemes := [c%"https"] } true c%"https://a\\b" = some (some c%"https://a\\b") ∧
    sanitizeUrl UrlEnv.sample { schemes := [c%"https"] } c%"a" c%"href" .allow true none none c%"https://a\\b" = none := by decide

/-- C21, counterexample: with a space between the slashes the fast path keeps a value as relative that the complete check
refuses as protocol-relative. -/
theorem C21_space_fails :
    fastUrl UrlEnv.sample { schemes := [c%"https"], resolve := none } true c%"/ /x" = some (some c%"/ /x") ∧
    sanitizeUrl UrlEnv.sample { schemes := [c%"https"], resolve := none } c%"a" c%"href" .allow true none none c%"/ /x" = none := by decide

/-- C21: whenever the fast path answers, it answers like the complete check. Partial: only for values without a backslash and
without a space between other characters; see the counterexamples. The hypotheses on the rule are those under which the parser
uses the fast path. -/
theorem C21_agree_partial (E : UrlEnv) (rule : UrlRule) (tag attr : Str) (rel : Bool) (value : Str) (hho : rule.hosts = none)
    (hb : '\\' ∉ value) (hsp : ' ' ∉ stripP E.U.isSpace value) (r : Option Str) (hf : fastUrl E rule rel value = some r) :
    sanitizeUrl E rule tag attr .allow rel none none value = r := by
  unfold fastUrl at hf
  dsimp only at hf
  rcases Bool.eq_false_or_eq_true (value.all isAscii) with hasc | hasc
  rotate_left
  · rw [if_pos (by simpa using hasc)] at hf; simp at hf
  rw [if_neg (by simp [hasc])] at hf
  unfold sanitizeUrl
  dsimp only
  rw [show stripInvisible value = value by unfold stripInvisible; rw [if_pos hasc]]
  have hbs : '\\' ∉ stripP E.U.isSpace value := fun h => hb (stripP_sub _ _ _ h)
  have hasc' : ∀ x ∈ stripP E.U.isSpace value, isAscii x = true := fun x hx => List.all_eq_true.mp hasc x (stripP_sub _ _ _ hx)
  generalize stripP E.U.isSpace value = s at *
  unfold checkStripped
  dsimp only
  by_cases he : s.isEmpty = true
  · rw [if_pos he] at hf
    have : s = [] := by simpa using he
    subst this
    simpa [normUrl] using hf
  rw [if_neg he] at hf
  have hpr : (s.all fun c => decide (0x20 ≤ c.toNat) && decide (c.toNat ≤ 0x7e)) = !s.any isUrlControl := by
    rw [Bool.eq_iff_iff]
    simp only [List.all_eq_true, Bool.and_eq_true, decide_eq_true_eq, Bool.not_eq_true', List.any_eq_false, isUrlControl,
      Bool.or_eq_true, not_or]
    constructor
    · intro h x hx
      have := h x hx
      omega
    · intro h x hx
      have h1 := h x hx
      have h2 := (isAscii_iff x).mp (hasc' x hx)
      omega
  rw [hpr] at hf
  have hspc : s.contains ' ' = false := by simpa using hsp
  rw [hspc] at hf
  by_cases hctl : s.any isUrlControl = true
  · rw [if_pos hctl]
    rw [hctl] at hf
    simpa using hf
  rw [if_neg hctl]
  rw [Bool.not_eq_true] at hctl
  rw [hctl] at hf
  have hnorm : normUrl s = s := by
    apply normUrl_id
    intro x hx
    have h1 : isUrlControl x = false := by
      rw [List.any_eq_false] at hctl
      simpa using hctl x hx
    simp only [isUrlControl, Bool.or_eq_false_iff, decide_eq_false_iff_not] at h1
    simp only [isUrlWs, Bool.or_eq_false_iff, decide_eq_false_iff_not]
    refine ⟨?_, h1.2⟩
    intro h
    have : x = ' ' := by
      apply char_eq_of_toNat
      have : ' '.toNat = 32 := rfl
      omega
    exact hsp (this ▸ hx)
  rw [hnorm] at hf ⊢
  rw [if_neg he, if_neg (by simpa using hbs)]
  simp only [Bool.not_false, Bool.and_true, Bool.not_true, Bool.false_eq_true, if_false] at hf
  rw [if_neg (show ¬ (decide (UrlHandling.allow = UrlHandling.proxy) && hasInvalidSchemePrefix s) = true by simp)]
  simp only [hho, Bool.false_eq_true, if_false, Option.isSome_none, finishUrl]
  have hget : ∀ sc : Str, isValidScheme sc = true → startsWith (sc ++ c%"://") s = true →
      getScheme E.U s = some (lowerA sc) := by
    intro sc hv h
    obtain ⟨t, ht⟩ := startsWith_iff.mp h
    rw [ht, show sc ++ c%"://" ++ t = sc ++ ':' :: ('/' :: '/' :: t) by simp]
    exact getScheme_of_split E.U sc _ hv
  have hfirst : ∀ sc : Str, isValidScheme sc = true → startsWith (sc ++ c%"://") s = true →
      startsWith c%"#" s = false ∧ startsWith c%"//" s = false := by
    intro sc hv h
    obtain ⟨t, ht⟩ := startsWith_iff.mp h
    cases sc with
    | nil => simp [isValidScheme] at hv
    | cons x sc =>
      have := validScheme_char _ hv x (by simp)
      rw [ht]
      simp [startsWith, List.isPrefixOf, Ne.symm this.2.2.2.1, Ne.symm this.2.1]
  by_cases h1 : startsWith c%"https://" s = true
  · rw [if_pos h1] at hf
    have hv : isValidScheme c%"https" = true := by decide
    obtain ⟨f1, f2⟩ := hfirst c%"https" hv h1
    rw [f1, f2, hget c%"https" hv h1]
    simp only [Bool.false_eq_true, if_false]
    rw [show lowerA c%"https" = c%"https" by decide]
    rw [show startsWith (c%"https" ++ c%"://") s = true from h1]
    simp only [Bool.not_true, Bool.and_false, Bool.false_eq_true, if_false]
    by_cases hm : rule.schemes.contains c%"https" = true
    · rw [if_pos hm] at hf
      rw [if_neg (by rw [hm]; decide)]
      exact Option.some.inj hf
    · rw [if_neg hm] at hf
      rw [if_pos (by simpa using hm)]
      exact Option.some.inj hf
  rw [if_neg h1] at hf
  by_cases h2 : startsWith c%"http://" s = true
  · rw [if_pos h2] at hf
    have hv : isValidScheme c%"http" = true := by decide
    obtain ⟨f1, f2⟩ := hfirst c%"http" hv h2
    rw [f1, f2, hget c%"http" hv h2]
    simp only [Bool.false_eq_true, if_false]
    rw [show lowerA c%"http" = c%"http" by decide]
    rw [show startsWith (c%"http" ++ c%"://") s = true from h2]
    simp only [Bool.not_true, Bool.and_false, Bool.false_eq_true, if_false]
    by_cases hm : rule.schemes.contains c%"http" = true
    · rw [if_pos hm] at hf
      rw [if_neg (by rw [hm]; decide)]
      exact Option.some.inj hf
    · rw [if_neg hm] at hf
      rw [if_pos (by simpa using hm)]
      exact Option.some.inj hf
  rw [if_neg h2] at hf
  have hbf : s.contains '\\' = false := by simpa using hbs
  by_cases hcol : s.contains ':' = true
  · rw [hcol, hbf] at hf
    simp only [Bool.not_true, Bool.false_eq_true, if_false, Bool.or_false] at hf
    rw [if_neg he] at hf
    by_cases h3 : startsWith c%"#" s = true
    · rw [if_pos h3] at hf ⊢
      cases ha : rule.allowFragment <;> rw [ha] at hf <;> simpa using hf
    rw [if_neg h3] at hf ⊢
    by_cases h4 : startsWith c%"//" s = true
    · rw [if_pos h4] at hf ⊢
      cases hres : rule.resolve with
      | none => rw [hres] at hf; simpa using hf
      | some r0 =>
        rw [hres] at hf
        dsimp only at hf ⊢
        by_cases h5 : r0.isEmpty = true
        · rw [if_pos h5] at hf ⊢; simpa using hf
        rw [if_neg h5] at hf ⊢
        by_cases h6 : (!rule.schemes.contains (E.U.lower r0)) = true
        · rw [if_pos h6] at hf ⊢; simpa using hf
        rw [if_neg h6] at hf ⊢
        simpa using hf
    rw [if_neg h4] at hf ⊢
    cases hg : getScheme E.U s with
    | none =>
      rw [hg] at hf
      cases rel <;> simpa using hf
    | some sc =>
      rw [hg] at hf
      dsimp only at hf ⊢
      by_cases h6 : (!rule.schemes.contains sc) = true
      · rw [if_pos h6] at hf ⊢; simpa using hf
      rw [if_neg h6] at hf ⊢
      generalize ((decide (sc = c%"http") || decide (sc = c%"https")) && !startsWith (sc ++ c%"://") s) = b at hf ⊢
      cases b <;> cases rel <;> simpa using hf
  · rw [Bool.not_eq_true] at hcol
    rw [hcol, hbf] at hf
    simp only [Bool.not_false, Bool.false_eq_true, if_false, if_true] at hf
    have hg : getScheme E.U s = none := by
      unfold getScheme schemeLikePrefix
      rw [find_char_none ':' s (by simpa using hcol)]
    by_cases h3 : startsWith c%"#" s = true
    · rw [if_pos h3] at hf ⊢
      cases ha : rule.allowFragment <;> rw [ha] at hf <;> simpa using hf
    rw [if_neg h3] at hf ⊢
    by_cases h4 : startsWith c%"//" s = true
    · rw [if_pos h4] at hf ⊢
      cases hres : rule.resolve with
      | none => rw [hres] at hf; simpa using hf
      | some r0 =>
        rw [hres] at hf
        dsimp only at hf ⊢
        by_cases h5 : r0.isEmpty = true
        · rw [if_pos h5] at hf ⊢; simpa using hf
        rw [if_neg h5] at hf ⊢
        by_cases h6 : (!rule.schemes.contains (E.U.lower r0)) = true
        · rw [if_pos h6] at hf ⊢; simpa using hf
        rw [if_neg h6] at hf ⊢
        simpa using hf
    rw [if_neg h4] at hf ⊢
    rw [hg]
    cases rel <;> simpa using hf

example : fastUrl UrlEnv.sample { schemes := [c%"https", c%"mailto"] } true c%" mailto:a@b " = some (some c%"mailto:a@b") := by decide

end JH
