import Verif.Props.Url
import Verif.Props.Escape
import Verif.Spec.UrlOpen
import Verif.Spec.Js
import Verif.Model.Context
/-! C97: the standalone URL cleaner. -/
namespace JH
open Spec

/-- What percent-encoding makes of one character. -/
def quoteC (c : Char) : Str := (utf8 c).flatMap (quoteByte urlSafe)

theorem escapeUrl_eq (v : Str) : escapeUrl v = v.flatMap quoteC := by
  unfold escapeUrl
  cases v with
  | nil => rfl
  | cons c v => rfl

/-- Characters that percent-encoding leaves alone. -/
def keptC (c : Char) : Bool := isAscii c && (alwaysSafe c || urlSafe c)

theorem quoteC_kept (c : Char) (h : keptC c = true) : quoteC c = [c] := by
  simp only [keptC, Bool.and_eq_true, isAscii_iff] at h
  unfold quoteC utf8
  dsimp only
  rw [if_pos (by omega), List.flatMap_singleton]
  unfold quoteByte
  rw [if_pos (by simp only [Char.ofNat_toNat, Bool.and_eq_true, decide_eq_true_eq]; exact ⟨by omega, h.2⟩), Char.ofNat_toNat]

theorem hexDigit_all (n : Nat) (h : n < 16) : isHexC (hexDigit n) = true := by
  have : ∀ m : Fin 16, isHexC (hexDigit m.val) = true := by decide
  exact this ⟨n, h⟩

/-- A character that is not left alone becomes `%` and more hexadecimal digits and `%`. -/
theorem quoteC_other (c : Char) (h : keptC c = false) : ∃ r, quoteC c = '%' :: r ∧ ∀ x ∈ r, x = '%' ∨ isHexC x = true := by
  have hb : ∀ b ∈ utf8 c, quoteByte urlSafe b = ['%', hexDigit (b / 16), hexDigit (b % 16)] := by
    intro b hm
    unfold quoteByte
    rw [if_neg]
    intro k
    simp only [Bool.and_eq_true, decide_eq_true_eq] at k
    by_cases hc : c.toNat < 0x80
    · unfold utf8 at hm
      dsimp only at hm
      rw [if_pos hc] at hm
      simp only [List.mem_singleton] at hm
      subst hm
      rw [Char.ofNat_toNat] at k
      have : keptC c = true := by simp only [keptC, Bool.and_eq_true, isAscii_iff]; exact ⟨by omega, k.2⟩
      rw [h] at this; simp at this
    · have := char_lt c
      unfold utf8 at hm
      dsimp only at hm
      rw [if_neg hc] at hm
      split at hm
      · simp at hm; omega
      · split at hm
        · simp at hm; omega
        · simp at hm; omega
  have hne : utf8 c ≠ [] := by
    unfold utf8
    dsimp only
    split
    · simp
    · split
      · simp
      · split <;> simp
  have h256 := utf8_bytes c
  unfold quoteC
  generalize utf8 c = bs at hb hne h256
  cases bs with
  | nil => exact absurd rfl hne
  | cons b bs =>
    rw [List.flatMap_cons, hb b (by simp)]
    refine ⟨_, rfl, ?_⟩
    intro x hx
    have hx' : x ∈ (b :: bs).flatMap (fun b => [hexDigit (b / 16), hexDigit (b % 16)]) ∨ x = '%' := by
      have hx : x = hexDigit (b / 16) ∨ x = hexDigit (b % 16) ∨ x ∈ bs.flatMap (quoteByte urlSafe) := by simpa using hx
      rw [List.mem_flatMap] at hx
      rcases hx with hx | hx | ⟨d, hd, hx⟩
      · left; rw [hx]; simp
      · left; rw [hx]; simp
      · rw [hb d (by simp [hd])] at hx
        simp only [List.mem_cons, List.not_mem_nil, or_false] at hx
        rcases hx with hx | hx | hx
        · exact .inr hx
        · left; rw [List.mem_flatMap]; exact ⟨d, by simp [hd], by simp [hx]⟩
        · left; rw [List.mem_flatMap]; exact ⟨d, by simp [hd], by simp [hx]⟩
    rcases hx' with hx' | hx'
    · rw [List.mem_flatMap] at hx'
      obtain ⟨d, hd, hx'⟩ := hx'
      have := h256 d hd
      simp only [List.mem_cons, List.not_mem_nil, or_false] at hx'
      rcases hx' with rfl | rfl
      · exact .inr (hexDigit_all _ (by omega))
      · exact .inr (hexDigit_all _ (by omega))
    · exact .inl hx'

theorem quoteC_ne (c : Char) : quoteC c ≠ [] := by
  cases h : keptC c with
  | true => rw [quoteC_kept c h]; simp
  | false => obtain ⟨r, hr, -⟩ := quoteC_other c h; rw [hr]; simp

/-- A character other than `%` and hexadecimal digits appears in the encoding of a character only if it is that character. -/
theorem quoteC_mem (c x : Char) (h : x ∈ quoteC c) (h1 : x ≠ '%') (h2 : isHexC x = false) : x = c := by
  cases hk : keptC c with
  | true => rw [quoteC_kept c hk] at h; simpa using h
  | false =>
    obtain ⟨r, hr, hx⟩ := quoteC_other c hk
    rw [hr] at h
    rcases List.mem_cons.mp h with h | h
    · exact absurd h h1
    · rcases hx x h with h | h
      · exact absurd h h1
      · rw [h2] at h; simp at h

theorem quoteC_head (c x : Char) (h : (quoteC c).head? = some x) : (keptC c = true ∧ x = c) ∨ x = '%' := by
  cases hk : keptC c with
  | true => rw [quoteC_kept c hk] at h; simp at h; exact .inl ⟨rfl, h.symm⟩
  | false =>
    obtain ⟨r, hr, -⟩ := quoteC_other c hk
    rw [hr] at h
    simp at h
    exact .inr h.symm

theorem takeWhile_flatMap (p : Char → Bool) (q : Char → Str) (v : Str)
    (h : ∀ c ∈ v, (p c = true ∧ ∀ x ∈ q c, p x = true) ∨ (p c = false ∧ ∃ x r, q c = x :: r ∧ p x = false)) :
    (v.flatMap q).takeWhile p = (v.takeWhile p).flatMap q ∧ (v.flatMap q).dropWhile p = (v.dropWhile p).flatMap q := by
  induction v with
  | nil => exact ⟨rfl, rfl⟩
  | cons c v ih =>
    have ih := ih fun c hc => h c (by simp [hc])
    rw [List.flatMap_cons, List.takeWhile_cons, List.dropWhile_cons]
    rcases h c (by simp) with ⟨h1, h2⟩ | ⟨h1, x, r, h2, h3⟩
    · rw [if_pos h1, if_pos h1, List.flatMap_cons, List.takeWhile_append_of_pos h2, List.dropWhile_append_of_pos h2, ih.1, ih.2]
      exact ⟨rfl, rfl⟩
    · rw [if_neg (by simp [h1]), if_neg (by simp [h1]), List.flatMap_cons, h2, List.cons_append, List.takeWhile_cons,
        List.dropWhile_cons, if_neg (by simp [h3]), if_neg (by simp [h3])]
      exact ⟨rfl, rfl⟩

/-- A scheme found in the encoded text was there before. -/
theorem splitScheme_quote (v a r' : Str) (h : splitScheme (escapeUrl v) = some (a, r')) :
    ∃ r, splitScheme v = some (a, r) ∧ r' = escapeUrl r := by
  obtain ⟨h1, h2⟩ := (splitScheme_iff _ _ _).mp h
  have hac := validScheme_char a h2
  rw [escapeUrl_eq] at h1
  have hch : ∀ x ∈ a, x ≠ '%' := by
    intro x hx e
    subst e
    cases a with
    | nil => simp at hx
    | cons f t =>
      simp only [isValidScheme, Bool.and_eq_true] at h2
      rcases List.mem_cons.mp hx with e | hx
      · rw [← e] at h2; exact absurd h2.1 (by decide)
      · exact absurd (List.all_eq_true.mp h2.2 _ hx) (by decide)
  have key : ∀ (a : Str) (v : Str), (∀ x ∈ a, x ≠ '%' ∧ x ≠ ':') → v.flatMap quoteC = a ++ ':' :: r' →
      ∃ r, v = a ++ ':' :: r ∧ r' = r.flatMap quoteC := by
    intro a
    induction a with
    | nil =>
      intro v _ hv
      cases v with
      | nil => simp at hv
      | cons c v =>
        rw [List.flatMap_cons] at hv
        have hh : (quoteC c).head? = some ':' := by
          cases hq : quoteC c with
          | nil => exact absurd hq (quoteC_ne c)
          | cons y t => rw [hq] at hv; simp at hv; simp [hv.1]
        rcases quoteC_head c ':' hh with ⟨hk, rfl⟩ | e
        · rw [quoteC_kept _ hk] at hv
          simp only [List.cons_append, List.nil_append, List.cons.injEq, true_and] at hv
          exact ⟨v, rfl, hv.symm⟩
        · simp at e
    | cons x a ih =>
      intro v ha hv
      cases v with
      | nil => simp at hv
      | cons c v =>
        rw [List.flatMap_cons] at hv
        have hh : (quoteC c).head? = some x := by
          cases hq : quoteC c with
          | nil => exact absurd hq (quoteC_ne c)
          | cons y t => rw [hq] at hv; simp at hv; simp [hv.1]
        rcases quoteC_head c x hh with ⟨hk, rfl⟩ | e
        · rw [quoteC_kept _ hk] at hv
          simp only [List.cons_append, List.nil_append, List.cons.injEq, true_and] at hv
          obtain ⟨r, e1, e2⟩ := ih v (fun y hy => ha y (by simp [hy])) hv
          exact ⟨r, by rw [e1]; rfl, e2⟩
        · exact absurd e (ha x (by simp)).1
  obtain ⟨r, e1, e2⟩ := key a v (fun x hx => ⟨hch x hx, (hac x hx).1⟩) h1
  exact ⟨r, (splitScheme_iff _ _ _).mpr ⟨e1, h2⟩, by rw [e2, escapeUrl_eq]⟩

/-- A browser trims nothing from an encoded text. -/
theorem escapeUrl_input (v : Str) : urlInput (escapeUrl v) = escapeUrl v := by
  have hw : ∀ x ∈ escapeUrl v, isUrlWs x = false := by
    intro x hx
    have h : 0x20 < x.toNat ∧ x.toNat ≠ 0x7f := by
      rcases C11_alphabet v x hx with h | h | h
      · simp only [isAsciiAlpha, Bool.or_eq_true, isLowerC_iff, isUpperC_iff] at h; omega
      · rw [isDigitC_iff] at h; omega
      · have : ∀ y ∈ c%"/:@?&=#+-._~%", 0x20 < y.toNat ∧ y.toNat ≠ 0x7f := by decide
        exact this x h
    simp only [isUrlWs, Bool.or_eq_false_iff, decide_eq_false_iff_not]
    omega
  exact urlInput_id _ (fun x hx => ws_control x (hw x hx)) (fun y hy => hw y (List.mem_of_head? hy))
    (fun y hy => hw y (List.mem_of_getLast? hy))

/-- The value a rule accepts is what a browser's trimming leaves. -/
theorem accept_input (E : UrlEnv) (rule : UrlRule) (h : UrlHandling) (rel : Bool) (s v : Str) (hc : Clean E s)
    (hres : ∀ r, rule.resolve = some r → SchemeName r) (ha : Accept E rule h rel s v) : urlInput v = v := by
  cases ha with
  | resolved r0 h1 h2 h3 h4 h5 =>
    have hv := (schemeName_iff r0).mp (hres r0 h1)
    have hva := validScheme_char r0 hv
    have hlow : E.U.lower r0 = lowerA r0 := E.U.lower_ascii _ (List.all_eq_true.mpr fun x hx => (hva x hx).2.2.2.2.2.2)
    rw [hlow]
    exact resolved_input _ s (lowerA_valid r0 hv)
  | fragment h1 h2 => exact clean_urlInput E s hc
  | bare sc h1 h2 h3 h4 => exact clean_urlInput E s hc
  | absolute sc h1 h2 h3 => exact clean_urlInput E s hc
  | relative h1 h2 h3 h4 => exact clean_urlInput E s hc

theorem sanitizeUrl_input (E : UrlEnv) (rule : UrlRule) (tag attr : Str) (rel : Bool) (proxy : Option UrlProxy)
    (filter : Option UrlFilter) (value out : Str) (hres : ∀ r, rule.resolve = some r → SchemeName r)
    (hk : sanitizeUrl E rule tag attr .allow rel proxy filter value = some out) : urlInput out = out := by
  obtain ⟨s, hc, -, -, -, v, ha, hf⟩ := sanitizeUrl_accept E rule tag attr .allow rel proxy filter value out hk
  simp only [finishUrl, Option.some.injEq] at hf
  subst hf
  exact accept_input E rule .allow rel s v hc hres ha

/-- The host of the encoded text, decoded, is the host of the text. -/
theorem openedHost_quote (v host : Str) (hb : '\\' ∉ v) (hin : urlInput v = v) (h : openedHost (escapeUrl v) = some host) :
    browserHost v = some host := by
  unfold openedHost at h
  rw [escapeUrl_input] at h
  split at h
  · simp at h
  rename_i a rest' hsp
  obtain ⟨rest, hs, hr⟩ := splitScheme_quote v a rest' hsp
  have hsub : '\\' ∉ rest := by
    obtain ⟨e, -⟩ := (splitScheme_iff _ _ _).mp hs
    rw [e] at hb
    simp only [List.mem_append, List.mem_cons, not_or] at hb
    exact hb.2.2
  unfold browserHost
  rw [hin, hs]
  dsimp only at h ⊢
  subst hr
  rw [escapeUrl_eq] at h
  have t1 := (takeWhile_flatMap slash quoteC rest (by
    intro c hc
    by_cases e : c = '/'
    · subst e
      left
      exact ⟨rfl, by rw [quoteC_kept _ (by decide)]; simp [slash]⟩
    · right
      have hn : c ≠ '\\' := fun e => hsub (e ▸ hc)
      refine ⟨by simp [slash, e, hn], ?_⟩
      cases hq : quoteC c with
      | nil => exact absurd hq (quoteC_ne c)
      | cons x r =>
        refine ⟨x, r, rfl, ?_⟩
        rcases quoteC_head c x (by rw [hq]; rfl) with ⟨-, rfl⟩ | rfl
        · simp [slash, e, hn]
        · rfl)).2
  rw [t1] at h
  generalize hd : rest.dropWhile slash = r1 at h ⊢
  have hsub1 : '\\' ∉ r1 := fun hm => hsub ((List.dropWhile_sublist _).mem (hd ▸ hm))
  have t2 := (takeWhile_flatMap (fun c => !(slash c || decide (c = '?') || decide (c = '#'))) quoteC r1 (by
    intro c hc
    by_cases e : c = '/' ∨ c = '?' ∨ c = '#'
    · right
      refine ⟨by rcases e with rfl | rfl | rfl <;> rfl, c, [], ?_, by rcases e with rfl | rfl | rfl <;> rfl⟩
      rcases e with rfl | rfl | rfl <;> exact quoteC_kept _ (by decide)
    · left
      have hn : c ≠ '\\' := fun e => hsub1 (e ▸ hc)
      simp only [not_or] at e
      refine ⟨by simp [slash, e, hn], ?_⟩
      intro x hx
      by_cases hx1 : x = '/' ∨ x = '?' ∨ x = '#' ∨ x = '\\'
      · exfalso
        have : x = c := quoteC_mem c x hx (by rcases hx1 with rfl | rfl | rfl | rfl <;> decide)
          (by rcases hx1 with rfl | rfl | rfl | rfl <;> decide)
        rw [this] at hx1
        rcases hx1 with h | h | h | h
        · exact e.1 h
        · exact e.2.1 h
        · exact e.2.2 h
        · exact hn h
      · simp only [not_or] at hx1
        simp [slash, hx1])).1
  rw [t2] at h
  generalize r1.takeWhile (fun c => !(slash c || decide (c = '?') || decide (c = '#'))) = au at h ⊢
  have t3 : ((au.flatMap quoteC).reverse.takeWhile (fun x => decide (x ≠ '@'))).reverse =
      ((au.reverse.takeWhile (fun x => decide (x ≠ '@'))).reverse).flatMap quoteC := by
    rw [List.reverse_flatMap, (takeWhile_flatMap (fun x => decide (x ≠ '@')) (List.reverse ∘ quoteC) au.reverse (by
      intro c _
      by_cases e : c = '@'
      · right
        subst e
        exact ⟨rfl, '@', [], by simp [quoteC_kept '@' (by decide)], rfl⟩
      · left
        refine ⟨by simp [e], ?_⟩
        intro x hx
        simp only [Function.comp_apply, List.mem_reverse] at hx
        simp only [decide_eq_true_eq]
        rintro rfl
        exact e (quoteC_mem c '@' hx (by decide) (by decide)).symm)).1, List.reverse_flatMap]
    congr 1
    funext x
    simp
  rw [t3] at h
  generalize (au.reverse.takeWhile (fun x => decide (x ≠ '@'))).reverse = hp at h ⊢
  unfold decodedHost at h
  split at h
  · simp at h
  rename_i t ht
  have hbr : ∀ x, x = '[' ∨ x = ']' → x ∉ hp.flatMap quoteC := by
    intro x hx hm
    rw [← escapeUrl_eq] at hm
    rcases C11_alphabet hp x hm with h | h | h
    · rcases hx with rfl | rfl <;> exact absurd h (by decide)
    · rcases hx with rfl | rfl <;> exact absurd h (by decide)
    · rcases hx with rfl | rfl <;> exact absurd h (by decide)
  unfold hostText at ht
  split at ht
  · rename_i r hh
    exact absurd (by rw [hh]; simp) (hbr '[' (.inl rfl))
  dsimp only at ht
  rw [drop_takeWhile] at ht
  have t4 := takeWhile_flatMap (fun x => decide (x ≠ ':')) quoteC hp (by
    intro c _
    by_cases e : c = ':'
    · right
      subst e
      exact ⟨rfl, ':', [], quoteC_kept ':' (by decide), rfl⟩
    · left
      refine ⟨by simp [e], ?_⟩
      intro x hx
      simp only [decide_eq_true_eq]
      rintro rfl
      exact e (quoteC_mem c ':' hx (by decide) (by decide)).symm)
  rw [t4.1, t4.2] at ht
  split at ht
  · simp at ht
  rename_i hcond
  simp only [Option.some.injEq] at ht
  subst ht
  rw [← escapeUrl_eq, C11_roundtrip] at h
  dsimp only at h
  split at h
  · simp at h
  rename_i hforb
  simp only [Option.some.injEq] at h
  subst h
  simp only [Bool.or_eq_true, not_or, Bool.not_eq_true, Bool.not_eq_eq_eq_not, Bool.not_true] at hcond
  obtain ⟨⟨⟨c1, -⟩, -⟩, c4⟩ := hcond
  have hnf : ∀ x, x = '[' ∨ x = ']' → x ∉ hp.takeWhile (fun x => decide (x ≠ ':')) := by
    intro x hx hm
    simp only [Bool.not_eq_true, List.any_eq_false] at hforb
    have := hforb x hm
    rcases hx with rfl | rfl <;> exact absurd this (by decide)
  have hport : portText (hp.dropWhile (fun x => decide (x ≠ ':'))) = true := by
    have c4 : portText ((hp.dropWhile (fun x => decide (x ≠ ':'))).flatMap quoteC) = true := by simpa using c4
    rcases portText_digits _ c4 with hz | ⟨d, hz, hd⟩
    · have : hp.dropWhile (fun x => decide (x ≠ ':')) = [] := by
        cases hw : hp.dropWhile (fun x => decide (x ≠ ':')) with
        | nil => rfl
        | cons y w =>
          rw [hw, List.flatMap_cons] at hz
          exact absurd (List.append_eq_nil_iff.mp hz).1 (quoteC_ne y)
      rw [this]; rfl
    · cases hw : hp.dropWhile (fun x => decide (x ≠ ':')) with
      | nil => rfl
      | cons y w =>
        have hy := dropWhile_hd (fun x => decide (x ≠ ':')) hp y (by rw [hw]; rfl)
        simp only [ne_eq, decide_eq_false_iff_not, Decidable.not_not] at hy
        subst hy
        rw [hw, List.flatMap_cons, quoteC_kept ':' (by decide)] at hz
        simp only [List.cons_append, List.nil_append, List.cons.injEq, true_and] at hz
        show (w.all fun c => decide ('0' ≤ c) && decide (c ≤ '9')) = true
        rw [List.all_eq_true]
        intro x hx
        cases hk : keptC x with
        | true => exact hd x (by rw [← hz, List.mem_flatMap]; exact ⟨x, hx, by rw [quoteC_kept x hk]; simp⟩)
        | false =>
          obtain ⟨r, hr, -⟩ := quoteC_other x hk
          exact absurd (hd '%' (by rw [← hz, List.mem_flatMap]; exact ⟨x, hx, by rw [hr]; simp⟩)) (by decide)
  have : hostText hp = some (hp.takeWhile (fun x => decide (x ≠ ':'))) := by
    unfold hostText
    split
    · rename_i r
      exact absurd (by simp) (hnf '[' (.inl rfl))
    · dsimp only
      rw [drop_takeWhile, if_neg]
      simp only [Bool.or_eq_true, not_or, Bool.not_eq_true, Bool.not_true, List.contains_eq_mem,
        decide_eq_false_iff_not, hport, Bool.not_true]
      refine ⟨⟨⟨?_, hnf '[' (.inl rfl)⟩, hnf ']' (.inr rfl)⟩, by simp⟩
      cases hq : hp.takeWhile (fun x => decide (x ≠ ':')) with
      | nil => rw [hq] at c1; simp at c1
      | cons y w => rfl
  rw [this]
  rfl

/-- What a returned URL is. -/
theorem cleanUrl_out (E : UrlEnv) (T : EntTables) (rule : UrlRule) (value out : Str) (hk : cleanUrlValue E T value rule = some (some out)) :
    ∃ v u, prepareUrl E.U T value = some v ∧
      sanitizeUrl E rule c%"*" c%"*" (rule.handling.getD .allow) (rule.allowRelative.getD true) rule.proxy none v = some u ∧
      out = escapeUrl u := by
  unfold cleanUrlValue at hk
  split at hk
  · simp at hk
  · split at hk
    · simp at hk
    · rename_i v hv
      simp only [Option.some.injEq, Option.map_eq_some_iff] at hk
      obtain ⟨u, h1, h2⟩ := hk
      exact ⟨v, u, hv, h1, h2.symm⟩

/-- C97: a returned URL (rule without proxying) opens only an allowed scheme, is no `//host` reference, and consists of ASCII letters, digits,
`/:@?&=#+-._~` and `%` only; in particular it has no quote, space, angle bracket or backslash. -/
theorem C97_scheme (E : UrlEnv) (T : EntTables) (rule : UrlRule) (value out : Str) (hres : ∀ r, rule.resolve = some r → SchemeName r)
    (hh : rule.handling = none ∨ rule.handling = some .allow) (hk : cleanUrlValue E T value rule = some (some out)) :
    (∀ sc, browserScheme out = some sc → sc ∈ rule.schemes) ∧ networkPath out = false ∧
      ∀ x ∈ out, isAsciiAlpha x = true ∨ isDigitC x = true ∨ x ∈ c%"/:@?&=#+-._~%" := by
  obtain ⟨v, u, -, h1, rfl⟩ := cleanUrl_out E T rule value out hk
  rw [show rule.handling.getD .allow = .allow by rcases hh with h | h <;> rw [h] <;> rfl] at h1
  have hin := sanitizeUrl_input E rule _ _ _ _ _ _ u hres h1
  refine ⟨?_, ?_, C11_alphabet u⟩
  · intro sc hsc
    unfold browserScheme at hsc
    rw [escapeUrl_input, Option.map_eq_some_iff] at hsc
    obtain ⟨⟨a, r'⟩, h2, h3⟩ := hsc
    obtain ⟨r, h4, -⟩ := splitScheme_quote u a r' h2
    refine C15_scheme E rule _ _ _ _ _ _ u hres h1 sc ?_
    unfold browserScheme
    rw [hin, h4]
    simp [← h3]
  · obtain ⟨hch, hnp⟩ := C16_characters E rule _ _ _ _ _ _ u hres h1
    unfold networkPath at hnp ⊢
    rw [escapeUrl_input]
    rw [hin] at hnp
    have hsl : ∀ c, c ≠ '\\' → ∀ x r, quoteC c = x :: r → slash x = true → c = '/' ∧ r = [] := by
      intro c hc x r hq hx
      rcases quoteC_head c x (by rw [hq]; rfl) with ⟨hk, rfl⟩ | rfl
      · rw [quoteC_kept _ hk] at hq
        simp only [List.cons.injEq, true_and] at hq
        simp only [slash, Bool.or_eq_true, decide_eq_true_eq, hc, or_false] at hx
        exact ⟨hx, hq.symm⟩
      · exact absurd hx (by decide)
    rw [escapeUrl_eq]
    split
    · rename_i a b t hab
      by_cases hs : (slash a && slash b) = true
      · exfalso
        simp only [Bool.and_eq_true] at hs
        cases u with
        | nil => simp at hab
        | cons c1 u1 =>
          rw [List.flatMap_cons] at hab
          cases hq1 : quoteC c1 with
          | nil => exact quoteC_ne _ hq1
          | cons x1 r1 =>
            rw [hq1] at hab
            simp only [List.cons_append, List.cons.injEq] at hab
            obtain ⟨e1, e2⟩ := hsl c1 (hch c1 (by simp)).2.2 x1 r1 hq1 (by rw [hab.1]; exact hs.1)
            subst e1
            rw [e2, List.nil_append] at hab
            cases u1 with
            | nil => simp at hab
            | cons c2 u2 =>
              rw [List.flatMap_cons] at hab
              cases hq2 : quoteC c2 with
              | nil => exact quoteC_ne _ hq2
              | cons x2 r2 =>
                rw [hq2] at hab
                simp only [List.cons_append, List.cons.injEq] at hab
                obtain ⟨e3, -⟩ := hsl c2 (hch c2 (by simp)).2.2 x2 r2 hq2 (by rw [hab.2.1]; exact hs.2)
                subst e3
                simp [slash] at hnp
      · simpa using hs
    · rfl

/-- C97: with a host allowlist, the domain a browser opens for a returned URL (percent escapes decoded) is in the list. -/
theorem C97_host (E : UrlEnv) (T : EntTables) (rule : UrlRule) (value out : Str) (hres : ∀ r, rule.resolve = some r → SchemeName r)
    (hh : rule.handling = none ∨ rule.handling = some .allow) (hs : List Str) (hho : rule.hosts = some hs)
    (hk : cleanUrlValue E T value rule = some (some out)) (host : Str) (hb : openedHost out = some host) : host ∈ hs := by
  obtain ⟨v, u, -, h1, rfl⟩ := cleanUrl_out E T rule value out hk
  rw [show rule.handling.getD .allow = .allow by rcases hh with h | h <;> rw [h] <;> rfl] at h1
  have hin := sanitizeUrl_input E rule _ _ _ _ _ _ u hres h1
  have hch := (C16_characters E rule _ _ _ _ _ _ u hres h1).1
  exact (C17_hosts E rule _ _ _ _ _ _ u hres hs hho h1 host
    (openedHost_quote u host (fun hm => (hch _ hm).2.2 rfl) hin hb)).1

/-- C97: embedded in a quoted attribute with `escape_attr_value`, a browser reads exactly the returned URL back. -/
theorem C97_attribute (E : UrlEnv) (T : EntTables) (rule : UrlRule) (value out : Str) (hres : ∀ r, rule.resolve = some r → SchemeName r)
    (hh : rule.handling = none ∨ rule.handling = some .allow) (hk : cleanUrlValue E T value rule = some (some out))
    (q : Char) (hq : q = '"' ∨ q = '\'') :
    ∃ e, escapeAttrCall q out = some e ∧ q ∉ e ∧ '<' ∉ e ∧
      ∃ u, decodeEntities E.U T true e = some u ∧ ∀ sc, browserScheme u = some sc → sc ∈ rule.schemes := by
  refine ⟨escapeAttr q out, ?_, (C02_attr_contained q hq out).1, (C02_attr_contained q hq out).2.1, out, C02_attr_roundtrip E.U T q hq out,
    (C97_scheme E T rule value out hres hh hk).1⟩
  unfold escapeAttrCall
  rw [if_pos (by rcases hq with rfl | rfl <;> rfl)]

/-- Without that step the property fails, as the documentation says: a doubly written reference (`&amp;#106...`) passes the check, and a
browser that decodes the attribute text sees a scheme that is not allowed. -/
theorem C97_unescaped_attribute_fails :
    cleanUrlValue UrlEnv.sample EntTables.sample c%"&amp;#106avascript:alert(1)" { schemes := [c%"https"] } =
        some (some c%"&#106avascript:alert%281%29") ∧
      decodeEntities Uni.sample EntTables.sample true c%"&#106avascript:alert%281%29" = some c%"javascript:alert%281%29" ∧
      browserScheme c%"javascript:alert%281%29" = some c%"javascript" := by
  refine ⟨by decide +kernel, by decide +kernel, by decide⟩

/-- C97 (partial): a returned URL without proxying, percent-decoded, is the URL that was accepted: the given text after decoding character
references and removing invisible characters, stripped, or that text behind the resolved scheme. Missing from the full statement (the
returned URL means what the given one means): texts that already contain percent escapes, see `C97_meaning_fails`. -/
theorem C97_meaning_partial (E : UrlEnv) (T : EntTables) (rule : UrlRule) (value out : Str)
    (hh : rule.handling = none ∨ rule.handling = some .allow) (hk : cleanUrlValue E T value rule = some (some out)) :
    ∃ d v, decodeEntities E.U T true value = some d ∧ (open Classical in v = d.filter fun c => ¬ Invisible c) ∧
      ((percentDecode out).bind utf8Decode = some (stripP E.U.isSpace v) ∨
        ∃ r, rule.resolve = some r ∧ startsWith c%"//" (normUrl (stripP E.U.isSpace v)) = true ∧
          (percentDecode out).bind utf8Decode = some (E.U.lower r ++ c%":" ++ normUrl (stripP E.U.isSpace v))) := by
  obtain ⟨v, u, hv, h1, rfl⟩ := cleanUrl_out E T rule value out hk
  rw [show rule.handling.getD .allow = .allow by rcases hh with h | h <;> rw [h] <;> rfl] at h1
  have hd : ∃ d, decodeEntities E.U T true value = some d ∧ v = stripInvisible d := by
    unfold prepareUrl at hv
    split at hv
    · rw [Option.map_eq_some_iff] at hv
      obtain ⟨w, hw, rfl⟩ := hv
      exact ⟨w, hw, rfl⟩
    · rename_i hn
      simp only [Option.some.injEq] at hv
      exact ⟨value, C14_no_amp_unchanged E.U T true value (by simpa using hn), hv.symm⟩
  obtain ⟨d, hd1, hd2⟩ := hd
  have hinv : stripInvisible v = v := by rw [hd2]; exact C55_idempotent d
  refine ⟨d, v, hd1, by rw [hd2]; exact C55_exact d, ?_⟩
  rw [C11_roundtrip]
  unfold sanitizeUrl at h1
  dsimp only at h1
  rw [hinv] at h1
  have hs1 := stripP_head E.U.isSpace v
  have hs2 := stripP_last E.U.isSpace v
  generalize stripP E.U.isSpace v = s at h1 hs1 hs2 ⊢
  obtain ⟨-, -, -, -, w, ha, hf⟩ := checkStripped_accept E rule .allow _ _ s u hs1 hs2 h1
  simp only [finishUrl, Option.some.injEq] at hf
  subst hf
  cases ha with
  | resolved r0 k1 k2 k3 k4 k5 => exact .inr ⟨r0, k1, k4, rfl⟩
  | fragment h1 h2 => exact .inl rfl
  | bare sc h1 h2 h3 h4 => exact .inl rfl
  | absolute sc h1 h2 h3 => exact .inl rfl
  | relative h1 h2 h3 h4 => exact .inl rfl

/-- C97 negation: a text that already has a percent escape comes back with the escape doubled, so it names another resource; cleaning the
returned URL again changes it again. -/
theorem C97_meaning_fails :
    cleanUrlValue UrlEnv.sample EntTables.sample c%"https://x/a%20b" { schemes := [c%"https"] } = some (some c%"https://x/a%2520b") ∧
      cleanUrlValue UrlEnv.sample EntTables.sample c%"https://x/a%2520b" { schemes := [c%"https"] } = some (some c%"https://x/a%252520b") ∧
      (percentDecode c%"https://x/a%20b").bind utf8Decode ≠ (percentDecode c%"https://x/a%2520b").bind utf8Decode := by
  refine ⟨by decide +kernel, by decide +kernel, by decide +kernel⟩

/-- C97 negation: with proxying, the target in the proxy's query parameter is percent-encoded twice, so after the one decoding a server does it
is not the accepted URL. -/
theorem C97_proxy_fails :
    cleanUrlValue UrlEnv.sample EntTables.sample c%"https://x/y"
        { schemes := [c%"https"], handling := some .proxy, proxy := some ⟨c%"/p", c%"url"⟩ } = some (some c%"/p?url=https%253A%252F%252Fx%252Fy") ∧
      queryPairs c%"/p?url=https%253A%252F%252Fx%252Fy" = [(c%"url", c%"https%253A%252F%252Fx%252Fy")] ∧
      (percentDecode c%"https%253A%252F%252Fx%252Fy").bind utf8Decode = some c%"https%3A%2F%2Fx%2Fy" := by
  refine ⟨by decide +kernel, by decide +kernel, by decide +kernel⟩

/-- C97: the cleaner raises only for a proxy rule without a proxy or when decoding character references raises (C13). -/
theorem C97_raises (E : UrlEnv) (T : EntTables) (rule : UrlRule) (value : Str) :
    cleanUrlValue E T value rule = none ↔
      (rule.handling = some .proxy ∧ rule.proxy = none) ∨ ('&' ∈ value ∧ decodeEntities E.U T true value = none) := by
  unfold cleanUrlValue
  have hp : prepareUrl E.U T value = none ↔ '&' ∈ value ∧ decodeEntities E.U T true value = none := by
    unfold prepareUrl
    by_cases h : value.contains '&' = true
    · rw [if_pos h]
      have : '&' ∈ value := by simpa using h
      simp [this]
    · rw [if_neg h]
      have : '&' ∉ value := by simpa using h
      simp [this]
  by_cases h : (decide (rule.handling = some UrlHandling.proxy) && rule.proxy.isNone) = true
  · rw [if_pos h]
    simp only [Bool.and_eq_true, decide_eq_true_eq, Option.isNone_iff_eq_none] at h
    simp [h]
  · rw [if_neg h]
    simp only [Bool.and_eq_true, decide_eq_true_eq, Option.isNone_iff_eq_none] at h
    rw [← hp]
    cases hq : prepareUrl E.U T value with
    | none => simp
    | some v => simp [h]

/-- C97: the JavaScript form. With a valid quote, what is returned is an escaped string literal body that evaluates to the URL
`clean_url_value` returns, has no raw line terminator, `<` or `>`, and ends inside the literal. -/
theorem C97_js (E : UrlEnv) (T : EntTables) (rule : UrlRule) (q : Char) (hq : q = '"' ∨ q = '\'') (value : Str) :
    (cleanUrlJs E T q value rule = none ↔ cleanUrlValue E T value rule = none) ∧
    (cleanUrlJs E T q value rule = some none ↔ cleanUrlValue E T value rule = some none) ∧
    ∀ e, cleanUrlJs E T q value rule = some (some e) →
      ∃ u, cleanUrlValue E T value rule = some (some u) ∧ evalJs q e = some u ∧ '<' ∉ e ∧ '>' ∉ e := by
  unfold cleanUrlJs
  cases h : cleanUrlValue E T value rule with
  | none => simp
  | some o =>
    cases o with
    | none => simp
    | some u =>
      obtain ⟨e, h1, h2⟩ := C10_js_roundtrip q hq u
      dsimp only
      rw [h1]
      refine ⟨by simp, by simp, ?_⟩
      intro e' he
      simp only [Option.map_some, Option.some.injEq] at he
      subst he
      have hc := C10_js_contained q u e h1
      exact ⟨u, rfl, h2, fun hm => (hc _ hm).2.2.1 rfl, fun hm => (hc _ hm).2.2.2.1 rfl⟩

/-! Concrete cases. -/

example : cleanUrlValue UrlEnv.sample EntTables.sample c%" HTTPS://Ex.org/ x?a=1&b='2' " { schemes := [c%"https"] } =
      some (some c%"HTTPS://Ex.org/%20x?a=1&b=%272%27") ∧
    browserScheme c%"HTTPS://Ex.org/%20x?a=1&b=%272%27" = some c%"https" := by decide +kernel
example : cleanUrlValue UrlEnv.sample EntTables.sample c%"javascript&#58;alert(1)" { schemes := [c%"https"] } = some none := by decide +kernel
example : cleanUrlValue UrlEnv.sample EntTables.sample c%"//OK.org:443/x" { schemes := [c%"https"], hosts := some [c%"ok.org"] } =
      some (some c%"https://OK.org:443/x") ∧ openedHost c%"https://OK.org:443/x" = some c%"ok.org" := by decide +kernel
example : openedHost c%"https://ev%69l.org/" = some c%"evil.org" ∧ openedHost c%"https://ok.org%2f@evil.org/" = some c%"evil.org" := by decide +kernel
example : cleanUrlJs UrlEnv.sample EntTables.sample '\'' c%"/a'b" { schemes := [] } = some (some c%"/a%27b") := by decide +kernel
example : cleanUrlValue UrlEnv.sample EntTables.sample c%"x" { handling := some .proxy } = none := by decide +kernel

end JH
