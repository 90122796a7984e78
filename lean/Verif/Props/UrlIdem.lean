import Verif.Props.Css
/-! Sanitizing a kept URL again: it is kept as it is. Used by C30. -/
namespace JH
open Spec

theorem strip_vis_iff (v : Str) : stripInvisible v = v ↔ ∀ c ∈ v, ¬ Invisible c := by
  rw [C55_exact, List.filter_eq_self]; simp

theorem ascii_visible (c : Char) (h : isAscii c = true) : ¬ Invisible c := by
  have := (isAscii_iff c).1 h
  intro hi
  simp only [Invisible] at hi
  omega

/-- Filtering spaces out of the text after the authority does not change the authority. -/
theorem netloc_filter (r : Str) (p : Char → Bool)
    (h : ∀ x ∈ r.takeWhile p, isUrlWs x = false) (hp : ∀ x, p x = false → isUrlWs x = false) :
    (r.filter fun c => !isUrlWs c).takeWhile p = r.takeWhile p := by
  induction r with
  | nil => rfl
  | cons a r ih =>
    by_cases ha : p a = true
    · rw [List.takeWhile_cons, if_pos ha] at h
      have h1 := h a (by simp)
      rw [List.filter_cons, if_pos (by simp [h1]), List.takeWhile_cons, if_pos ha, List.takeWhile_cons, if_pos ha,
        ih fun x hx => h x (by simp [hx])]
    · have h1 := hp a (by simpa using ha)
      rw [List.filter_cons, if_pos (by simp [h1]), List.takeWhile_cons, if_neg ha, List.takeWhile_cons, if_neg ha]

theorem urlRest_split (a r : Str) (hv : isValidScheme a = true) : urlRest (a ++ ':' :: r) = r := by
  have hc := validScheme_char a hv
  unfold urlRest
  rw [find_char ':' a r (fun hm => (hc _ hm).1 rfl)]
  dsimp only
  rw [List.take_left, if_pos hv]
  have : a.length + 1 = (a ++ [':']).length := by simp
  rw [this, show a ++ ':' :: r = (a ++ [':']) ++ r by simp, List.drop_left]

theorem netloc_of (E : UrlEnv) (a s : Str) (hv : isValidScheme a = true) (hc : ∀ x ∈ s, isUrlControl x = false) :
    urlsplitNetloc E (a ++ c%":" ++ s) =
      (let netloc := if startsWith c%"//" s then (s.drop 2).takeWhile (fun c => c ≠ '/' && c ≠ '?' && c ≠ '#') else []
       if E.netlocOk netloc then some netloc else none) := by
  have hvc := validScheme_char a hv
  have hne : a ≠ [] := by rintro rfl; simp [isValidScheme] at hv
  obtain ⟨c, r, rfl⟩ := List.exists_cons_of_ne_nil hne
  unfold urlsplitNetloc
  have e1 : lstripP (fun c => c.toNat ≤ 0x20) (c :: r ++ c%":" ++ s) = c :: r ++ c%":" ++ s := by
    unfold lstripP
    have := (hvc c (by simp)).2.2.2.2.2.1
    simp only [isUrlWs, Bool.or_eq_false_iff, decide_eq_false_iff_not] at this
    rw [List.cons_append, List.cons_append, List.dropWhile_cons, if_neg (by simpa using this.1)]
  have e2 : (c :: r ++ c%":" ++ s).filter (fun c => !(c = '\t' || c = '\n' || c = '\r')) = c :: r ++ c%":" ++ s := by
    rw [List.filter_eq_self]
    intro x hx
    have hx' : isUrlControl x = false := by
      rw [List.mem_append, List.mem_append] at hx
      rcases hx with (hx | hx) | hx
      · exact ws_control x (hvc x hx).2.2.2.2.2.1
      · simp at hx; rw [hx]; rfl
      · exact hc x hx
    simp only [isUrlControl, Bool.or_eq_false_iff, decide_eq_false_iff_not] at hx'
    have e1 : '\t'.toNat = 9 := rfl
    have e2 : '\n'.toNat = 10 := rfl
    have e3 : '\r'.toNat = 13 := rfl
    simp only [Bool.not_eq_true', Bool.or_eq_false_iff, decide_eq_false_iff_not]
    refine ⟨⟨?_, ?_⟩, ?_⟩ <;> rintro rfl <;> omega
  have e3 : urlRest (c :: r ++ c%":" ++ s) = s := by
    rw [show c :: r ++ c%":" ++ s = (c :: r) ++ ':' :: s by simp]; exact urlRest_split (c :: r) s hv
  rw [e1, e2]
  dsimp only
  rw [e3]

theorem hostMatches_norm (E : UrlEnv) (a s : Str) (hs : List Str) (hv : isValidScheme a = true) (hc : ∀ x ∈ s, isUrlControl x = false)
    (h : hostMatches E (a ++ c%":" ++ s) hs = true) : hostMatches E (a ++ c%":" ++ normUrl s) hs = true := by
  have hc' : ∀ x ∈ normUrl s, isUrlControl x = false := by
    intro x hx; rw [normUrl_eq, List.mem_filter] at hx; exact hc x hx.1
  have key : urlsplitNetloc E (a ++ c%":" ++ normUrl s) = urlsplitNetloc E (a ++ c%":" ++ s) := by
    rw [netloc_of E a s hv hc, netloc_of E a _ hv hc']
    unfold hostMatches at h
    rw [netloc_of E a s hv hc] at h
    by_cases hst : startsWith c%"//" s = true
    · obtain ⟨t, rfl⟩ := startsWith_iff.1 hst
      simp only [hst, if_true] at h
      have hn : normUrl (c%"//" ++ t) = c%"//" ++ normUrl t := by
        rw [normUrl_append, normUrl_id c%"//" (by decide)]
      rw [hn]
      simp only [startsWith_append, if_true, show ∀ x : Str, (c%"//" ++ x).drop 2 = x from fun _ => rfl] at h ⊢
      have hnl : ∀ x ∈ t.takeWhile (fun c => c ≠ '/' && c ≠ '?' && c ≠ '#'), isUrlWs x = false := by
        generalize t.takeWhile (fun c => c ≠ '/' && c ≠ '?' && c ≠ '#') = nl at h
        cases hok : E.netlocOk nl with
        | false => rw [hok] at h; simp at h
        | true =>
          rw [hok] at h
          simp only [if_true] at h
          cases hany : nl.any isUrlWs with
          | true => rw [hany] at h; simp at h
          | false => simpa [List.any_eq_false] using hany
      have := netloc_filter t (fun c => c ≠ '/' && c ≠ '?' && c ≠ '#') hnl (by
        intro x hx
        simp only [Bool.and_eq_false_iff, decide_eq_false_iff_not, ne_eq, Decidable.not_not] at hx
        rcases hx with (rfl | rfl) | rfl <;> rfl)
      rw [normUrl_eq, this]
    · exfalso
      simp only [if_neg hst] at h
      cases hok : E.netlocOk [] with
      | false => rw [hok] at h; simp at h
      | true => rw [hok] at h; simp [rawAuthorityHost, afterAt, startsWith] at h
  unfold hostMatches at h ⊢
  rw [key]
  exact h

/-- A resolved URL is accepted again. -/
theorem check_resolved (E : UrlEnv) (rule : UrlRule) (rel : Bool) (proxy : Option UrlProxy) (s a : Str) (hv : isValidScheme a = true)
    (hl : lowerA a = a) (hsch : a ∈ rule.schemes) (hc : Clean E s) (hb : '\\' ∉ s) (hst : startsWith c%"//" (normUrl s) = true)
    (hh : ∀ hs, rule.hosts = some hs → hostMatches E (a ++ c%":" ++ s) hs = true) :
    checkStripped E rule .allow rel proxy (a ++ c%":" ++ normUrl s) = some (a ++ c%":" ++ normUrl s) := by
  have hws := resolved_ws a s hv
  have hvc := validScheme_char a hv
  have hne : a ≠ [] := by rintro rfl; simp [isValidScheme] at hv
  have hn : normUrl (a ++ c%":" ++ normUrl s) = a ++ c%":" ++ normUrl s := normUrl_id _ hws
  have hhm : ∀ hs, rule.hosts = some hs → hostMatches E (a ++ c%":" ++ normUrl s) hs = true :=
    fun hs e => hostMatches_norm E a s hs hv hc.noControl (hh hs e)
  unfold checkStripped
  rw [if_neg (by
    rw [List.any_eq_true]
    rintro ⟨x, hx, hx'⟩
    rw [ws_control x (hws x hx)] at hx'; simp at hx')]
  dsimp only
  rw [hn, if_neg (by simp), if_neg (by
    rw [List.contains_iff_mem, List.mem_append, List.mem_append]
    rintro ((h | h) | h)
    · have := hvc _ h
      simp only [isValidScheme] at hv
      obtain ⟨f, r, rfl⟩ := List.exists_cons_of_ne_nil hne
      simp only [Bool.and_eq_true, List.all_eq_true] at hv
      rcases List.mem_cons.1 h with h | h
      · rw [← h] at hv; simp [isAsciiAlpha, isUpperC, isLowerC] at hv
      · have := hv.2 _ h; simp [isAsciiAlpha, isUpperC, isLowerC, isDigitC] at this
    · simp at h
    · rw [normUrl_eq, List.mem_filter] at h; exact hb h.1)]
  obtain ⟨f, r, rfl⟩ := List.exists_cons_of_ne_nil hne
  have hf := hvc f (by simp)
  have hf2 : f ≠ '/' ∧ f ≠ '#' := ⟨hf.2.1, hf.2.2.2.1⟩
  rw [if_neg (by simp [startsWith, List.isPrefixOf, Ne.symm hf2.2]), if_neg (by simp), if_neg (by
    simp [startsWith, List.isPrefixOf, Ne.symm hf2.1])]
  have hg : getScheme E.U (f :: r ++ c%":" ++ normUrl s) = some (f :: r) := by
    rw [show f :: r ++ c%":" ++ normUrl s = (f :: r) ++ ':' :: normUrl s by simp, getScheme_of_split _ _ _ hv, hl]
  rw [hg]
  dsimp only
  rw [if_neg (by simpa using hsch)]
  rw [if_neg (by
    have : startsWith (f :: r ++ c%"://") (f :: r ++ c%":" ++ normUrl s) = true := by
      obtain ⟨t, ht⟩ := startsWith_iff.1 hst
      rw [ht]; exact startsWith_iff.2 ⟨t, by simp⟩
    rw [this]; simp)]
  cases hho : rule.hosts with
  | none => dsimp only; rw [if_neg (by simp)]; rfl
  | some hs =>
    dsimp only
    rw [if_neg (by rw [hhm hs hho]; simp)]
    rfl

theorem check_idem (E : UrlEnv) (rule : UrlRule) (h : UrlHandling) (rel : Bool) (proxy : Option UrlProxy) (s out : Str) (hp : h ≠ .proxy)
    (hres : ∀ r, rule.resolve = some r → SchemeName r)
    (hs : stripP E.U.isSpace s = s) (hk : checkStripped E rule h rel proxy s = some out) :
    checkStripped E rule h rel proxy out = some out ∧ stripP E.U.isSpace out = out ∧ (stripInvisible s = s → stripInvisible out = out) ∧
      (∀ x ∈ out, x ∈ s ∨ isAsciiAlpha x = true ∨ isDigitC x = true ∨ x = '+' ∨ x = '-' ∨ x = '.' ∨ x = ':') := by
  have hhd : ∀ y, s.head? = some y → E.U.isSpace y = false := by rw [← hs]; exact stripP_head _ _
  have hlt : ∀ y, s.getLast? = some y → E.U.isSpace y = false := by rw [← hs]; exact stripP_last _ _
  obtain ⟨hc, hb, hne, -, v, ha, hf⟩ := checkStripped_accept E rule h rel proxy s out hhd hlt hk
  cases h with
  | proxy => exact absurd rfl hp
  | strip => simp [finishUrl] at hf
  | allow =>
    simp only [finishUrl, Option.some.injEq] at hf
    subst hf
    have same : v = s → checkStripped E rule .allow rel proxy v = some v ∧ stripP E.U.isSpace v = v ∧
        (stripInvisible s = s → stripInvisible v = v) ∧
        (∀ x ∈ v, x ∈ s ∨ isAsciiAlpha x = true ∨ isDigitC x = true ∨ x = '+' ∨ x = '-' ∨ x = '.' ∨ x = ':') := by
      rintro rfl; exact ⟨hk, hs, id, fun x hx => .inl hx⟩
    cases ha with
    | fragment => exact same rfl
    | bare => exact same rfl
    | absolute => exact same rfl
    | relative => exact same rfl
    | resolved r0 h1 h2 h3 h4 h5 =>
      have hval := (schemeName_iff r0).mp (hres r0 h1)
      have hva := validScheme_char r0 hval
      have hlow : E.U.lower r0 = lowerA r0 := E.U.lower_ascii _ (List.all_eq_true.mpr fun x hx => (hva x hx).2.2.2.2.2.2)
      rw [hlow] at h3 h5 ⊢
      have hvl := lowerA_valid r0 hval
      have hvc := validScheme_char _ hvl
      have hll : lowerA (lowerA r0) = lowerA r0 := by
        unfold lowerA; rw [List.map_map]; apply List.map_congr_left; intro c _; exact lowerC_idem c
      generalize lowerA r0 = a at *
      have hane : a ≠ [] := by rintro rfl; simp [isValidScheme] at hvl
      have hchars : ∀ x ∈ a, isAsciiAlpha x = true ∨ isDigitC x = true ∨ x = '+' ∨ x = '-' ∨ x = '.' := by
        intro x hx
        obtain ⟨f, r, rfl⟩ := List.exists_cons_of_ne_nil hane
        simp only [isValidScheme, Bool.and_eq_true, List.all_eq_true, Bool.or_eq_true, decide_eq_true_eq] at hvl
        rcases List.mem_cons.1 hx with rfl | hx
        · exact .inl hvl.1
        · have := hvl.2 x hx
          rcases this with (((h | h) | h) | h) | h
          · exact .inl h
          · exact .inr (.inl h)
          · exact .inr (.inr (.inl h))
          · exact .inr (.inr (.inr (.inl h)))
          · exact .inr (.inr (.inr (.inr h)))
      refine ⟨check_resolved E rule rel proxy s a hvl hll h3 hc hb h4 h5, ?_, ?_, ?_⟩
      · apply stripP_fix
        · intro y hy
          obtain ⟨f, r, rfl⟩ := List.exists_cons_of_ne_nil hane
          simp at hy
          subst hy
          exact isSpace_not_urlws E _ (hvc _ (by simp)).2.2.2.2.2.2 (hvc _ (by simp)).2.2.2.2.2.1
        · intro y hy
          -- the last character of the normalized text is that of the text
          obtain ⟨pre, z, hz⟩ := List.eq_nil_or_concat s |>.resolve_left hne
          have hzl : s.getLast? = some z := by rw [hz]; simp
          have hzs := hlt z hzl
          have hzw : isUrlWs z = false := clean_edge E z (hc.noControl z (by rw [hz]; simp)) hzs
          have hn : normUrl s = normUrl pre ++ [z] := by
            rw [hz, List.concat_eq_append, normUrl_append, normUrl_id [z] (by simpa using hzw)]
          rw [hn, ← List.append_assoc] at hy
          rw [List.getLast?_append] at hy
          simp only [List.getLast?_singleton, Option.some_or, Option.some.injEq] at hy
          subst hy; exact hzs
      · intro hi
        rw [strip_vis_iff] at hi ⊢
        intro c hcm
        rw [List.mem_append, List.mem_append] at hcm
        rcases hcm with (hx | hx) | hx
        · exact ascii_visible c (hvc c hx).2.2.2.2.2.2
        · simp at hx; rw [hx]; exact ascii_visible _ (by decide)
        · rw [normUrl_eq, List.mem_filter] at hx; exact hi c hx.1
      · intro x hx
        rw [List.mem_append, List.mem_append] at hx
        rcases hx with (hx | hx) | hx
        · rcases hchars x hx with h | h | h | h | h
          · exact .inr (.inl h)
          · exact .inr (.inr (.inl h))
          · exact .inr (.inr (.inr (.inl h)))
          · exact .inr (.inr (.inr (.inr (.inl h))))
          · exact .inr (.inr (.inr (.inr (.inr (.inl h)))))
        · simp at hx; exact .inr (.inr (.inr (.inr (.inr (.inr hx)))))
        · rw [normUrl_eq, List.mem_filter] at hx; exact .inl hx.1

/-- A kept URL is kept unchanged the next time, and it contains no invisible characters. -/
theorem url_idem (E : UrlEnv) (rule : UrlRule) (tag attr : Str) (h : UrlHandling) (rel : Bool) (proxy : Option UrlProxy) (v out : Str)
    (hp : h ≠ .proxy) (hres : ∀ r, rule.resolve = some r → SchemeName r)
    (hk : sanitizeUrl E rule tag attr h rel proxy none v = some out) :
    sanitizeUrl E rule tag attr h rel proxy none out = some out ∧ stripInvisible out = out ∧ stripP E.U.isSpace out = out ∧
      (∀ x ∈ out, x ∈ v ∨ isAsciiAlpha x = true ∨ isDigitC x = true ∨ x = '+' ∨ x = '-' ∨ x = '.' ∨ x = ':') := by
  unfold sanitizeUrl at hk ⊢
  dsimp only at hk ⊢
  have hs := stripP_stripP E.U.isSpace (stripInvisible v)
  have hi : stripInvisible (stripP E.U.isSpace (stripInvisible v)) = stripP E.U.isSpace (stripInvisible v) := by
    rw [strip_vis_iff]
    intro c hc
    exact C55_none_left v c (stripP_sub _ _ _ hc)
  obtain ⟨h1, h2, h3, h4⟩ := check_idem E rule h rel proxy _ out hp hres hs hk
  rw [h3 hi, h2]
  refine ⟨h1, rfl, rfl, ?_⟩
  intro x hx
  rcases h4 x hx with h | h
  · exact .inl (stripInvisible_sub _ _ (stripP_sub _ _ _ h))
  · exact .inr h


/-! ### Lists -/

theorem splitWs_word (sp : Char → Bool) : ∀ (u w : Str), (∀ x ∈ u, sp x = false) → w.reverse ++ u ≠ [] → ∀ (c : Char) (rest : Str), sp c = true →
    splitWs sp w (u ++ c :: rest) = (w.reverse ++ u) :: splitWs sp [] rest := by
  intro u
  induction u with
  | nil =>
    intro w _ hne c rest hc
    simp only [List.append_nil] at hne ⊢
    rw [List.nil_append, splitWs, if_pos hc, if_neg (by simpa using hne)]
  | cons a u ih =>
    intro w hu hne c rest hc
    rw [List.cons_append, splitWs, if_neg (by simp [hu a (by simp)]), ih (a :: w) (fun x hx => hu x (by simp [hx])) (by simp) c rest hc]
    simp

theorem splitWs_last (sp : Char → Bool) : ∀ (u w : Str), (∀ x ∈ u, sp x = false) → w.reverse ++ u ≠ [] →
    splitWs sp w u = [w.reverse ++ u] := by
  intro u
  induction u with
  | nil =>
    intro w _ hne
    simp only [List.append_nil] at hne ⊢
    rw [splitWs, if_neg (by simpa using hne)]
  | cons a u ih =>
    intro w hu hne
    rw [splitWs, if_neg (by simp [hu a (by simp)]), ih (a :: w) (fun x hx => hu x (by simp [hx])) (by simp)]
    simp

theorem splitWs_join (sp : Char → Bool) (hsp : sp ' ' = true) : ∀ us : List Str, (∀ u ∈ us, u ≠ [] ∧ ∀ x ∈ u, sp x = false) →
    splitWs sp [] (join c%" " us) = us := by
  intro us
  induction us with
  | nil => intro _; rfl
  | cons u us ih =>
    intro h
    have hu := h u (by simp)
    cases us with
    | nil => rw [join]; exact splitWs_last sp u [] hu.2 (by simpa using hu.1)
    | cons v us =>
      rw [show join c%" " (u :: v :: us) = u ++ ' ' :: join c%" " (v :: us) by rw [join]; simp; simp,
        splitWs_word sp u [] hu.2 (by simpa using hu.1) ' ' _ hsp, ih fun x hx => h x (by simp [hx])]
      rfl

/-- The ends of joined non-empty pieces. -/
theorem join_edges (sep : Str) : ∀ us : List Str, us ≠ [] → (∀ u ∈ us, u ≠ []) →
    (∃ u ∈ us, (join sep us).head? = u.head?) ∧ (∃ u ∈ us, (join sep us).getLast? = u.getLast?) := by
  intro us
  induction us with
  | nil => intro h; exact absurd rfl h
  | cons u us ih =>
    intro _ h
    cases us with
    | nil => exact ⟨⟨u, by simp, rfl⟩, ⟨u, by simp, rfl⟩⟩
    | cons v us =>
      have hu := h u (by simp)
      obtain ⟨-, w, hw, e⟩ := ih (by simp) (fun x hx => h x (by simp [hx]))
      rw [join_cons2]
      refine ⟨⟨u, by simp, ?_⟩, ⟨w, by simp at hw ⊢; exact .inr hw, ?_⟩⟩
      · rw [List.append_assoc, List.head?_append]
        obtain ⟨c, r, rfl⟩ := List.exists_cons_of_ne_nil hu
        rfl
      · rw [List.getLast?_append, e]
        have : w ≠ [] := h w (by simp at hw ⊢; exact .inr hw)
        rw [List.getLast?_eq_some_getLast this]; rfl

theorem join_strip (sp : Char → Bool) (sep : Str) (us : List Str) (hne : us ≠ []) (h : ∀ u ∈ us, u ≠ [] ∧ stripP sp u = u) :
    stripP sp (join sep us) = join sep us := by
  obtain ⟨⟨u, hu, e1⟩, ⟨w, hw, e2⟩⟩ := join_edges sep us hne (fun u hu => (h u hu).1)
  apply stripP_fix
  · intro y hy
    rw [e1, ← (h u hu).2] at hy
    exact stripP_head _ _ _ hy
  · intro y hy
    rw [e2, ← (h w hw).2] at hy
    exact stripP_last _ _ _ hy

theorem join_ne (sep : Str) (us : List Str) (hne : us ≠ []) (h : ∀ u ∈ us, u ≠ []) : join sep us ≠ [] := by
  obtain ⟨⟨u, hu, e1⟩, -⟩ := join_edges sep us hne h
  intro e
  rw [e] at e1
  have := h u hu
  cases u with
  | nil => exact this rfl
  | cons a u => simp at e1

theorem join_chars (sep : Str) (us : List Str) (x : Char) (h : x ∈ join sep us) : x ∈ sep ∨ ∃ u ∈ us, x ∈ u := by
  induction us with
  | nil => simp [join] at h
  | cons u us ih =>
    cases us with
    | nil => rw [join] at h; exact .inr ⟨u, by simp, h⟩
    | cons v us =>
      rw [join_cons2, List.mem_append, List.mem_append] at h
      rcases h with (h | h) | h
      · exact .inr ⟨u, by simp, h⟩
      · exact .inl h
      · rcases ih h with h | ⟨w, hw, hx⟩
        · exact .inl h
        · exact .inr ⟨w, by simp at hw ⊢; exact .inr hw, hx⟩

theorem join_visible (sep : Str) (us : List Str) (hsep : stripInvisible sep = sep) (h : ∀ u ∈ us, stripInvisible u = u) :
    stripInvisible (join sep us) = join sep us := by
  rw [strip_vis_iff] at hsep ⊢
  intro c hc
  rcases join_chars sep us c hc with h1 | ⟨u, hu, hx⟩
  · exact hsep c h1
  · exact (strip_vis_iff u).1 (h u hu) c hx

theorem tokens_fix (E : UrlEnv) (p : UrlPolicy) (rule : UrlRule) (tag attr : Str) (us : List Str)
    (h : ∀ u ∈ us, sanitizeUrl E rule tag attr (effHandling p rule) (effAllowRelative p rule) (effProxy p rule) none u = some u) :
    sanitizeTokens E p rule tag attr us = some us := by
  induction us with
  | nil => rfl
  | cons u us ih => rw [sanitizeTokens, h u (by simp)]; dsimp only; rw [ih fun x hx => h x (by simp [hx])]; rfl

theorem forall2_right {α β : Type} {R : α → β → Prop} {l1 : List α} {l2 : List β} (h : List.Forall₂ R l1 l2) : ∀ b ∈ l2, ∃ a ∈ l1, R a b := by
  induction h with
  | nil => simp
  | cons h1 _ ih =>
    intro b hb
    rcases List.mem_cons.1 hb with rfl | hb
    · exact ⟨_, by simp, h1⟩
    · obtain ⟨a, ha, r⟩ := ih b hb; exact ⟨a, by simp [ha], r⟩

/-- The characters a kept URL may have in addition to those of the input: none of them is a space or a comma. -/
theorem extra_nospace (E : UrlEnv) (x : Char) (h : isAsciiAlpha x = true ∨ isDigitC x = true ∨ x = '+' ∨ x = '-' ∨ x = '.' ∨ x = ':') :
    E.U.isSpace x = false ∧ x ≠ ',' ∧ x ≠ ';' ∧ isAscii x = true := by
  have e0 : '0'.toNat = 48 := rfl
  have e9 : '9'.toNat = 57 := rfl
  have eA : 'A'.toNat = 65 := rfl
  have eZ : 'Z'.toNat = 90 := rfl
  have ea : 'a'.toNat = 97 := rfl
  have ez : 'z'.toNat = 122 := rfl
  have hx : 43 ≤ x.toNat ∧ x.toNat ≤ 122 ∧ x.toNat ≠ 44 ∧ x.toNat ≠ 59 := by
    simp only [isAsciiAlpha, isUpperC, isLowerC, isDigitC, Bool.or_eq_true, Bool.and_eq_true, decide_eq_true_eq] at h
    rcases h with (h | h) | h | rfl | rfl | rfl | rfl
    · omega
    · omega
    · omega
    all_goals decide
  have hasc : isAscii x = true := by simp only [isAscii, decide_eq_true_eq]; omega
  refine ⟨?_, ?_, ?_, hasc⟩
  · rw [E.U.isSpace_ascii x hasc]
    simp only [Bool.or_eq_false_iff, Bool.and_eq_false_iff, decide_eq_false_iff_not]
    refine ⟨⟨?_, by omega⟩, by omega⟩
    rintro rfl
    have : ' '.toNat = 32 := rfl
    omega
  · rintro rfl; have : ','.toNat = 44 := rfl; omega
  · rintro rfl; have : ';'.toNat = 59 := rfl; omega

theorem list_idem (E : UrlEnv) (comma : Bool) (p : UrlPolicy) (rule : UrlRule) (tag attr v out : Str) (hf : p.filter = none)
    (hp : effHandling p rule ≠ .proxy) (hres : ∀ r, rule.resolve = some r → SchemeName r)
    (hk : sanitizeList E comma p rule tag attr v = some out) :
    sanitizeList E comma p rule tag attr out = some out ∧ stripInvisible out = out := by
  unfold sanitizeList at hk
  have hfl : ∀ x, applyListFilter p tag attr x = some x := by intro x; simp [applyListFilter, hf]
  rw [hfl] at hk
  dsimp only at hk
  rw [Option.ite_none_left_eq_some] at hk
  replace hk := hk.2
  cases ht : sanitizeTokens E p rule tag attr (splitList E comma (stripP E.U.isSpace v)) with
  | none => rw [ht] at hk; simp at hk
  | some outs =>
    rw [ht] at hk
    have hfa := sanitizeTokens_forall E p rule tag attr _ outs ht
    have hne : outs ≠ [] := by rintro rfl; simp at hk
    have hout : out = join c%" " outs := by
      obtain ⟨a, l, rfl⟩ := List.exists_cons_of_ne_nil hne
      simpa using hk.symm
    have hprop : ∀ u ∈ outs, sanitizeUrl E rule tag attr (effHandling p rule) (effAllowRelative p rule) (effProxy p rule) none u = some u ∧
        stripInvisible u = u ∧ stripP E.U.isSpace u = u ∧ u ≠ [] ∧ ∀ x ∈ u, (E.U.isSpace x || (comma && x = ',')) = false := by
      intro u hu
      obtain ⟨t, ht1, ht2⟩ := forall2_right hfa u hu
      have hpc := splitWs_pieces (fun c => E.U.isSpace c || (comma && c = ',')) (stripP E.U.isSpace v) [] (by simp) t ht1
      obtain ⟨i1, i2, i3, i4⟩ := url_idem E rule tag attr _ _ _ t u hp hres ht2
      have hu0 : u ≠ [] := (kept_token E rule tag attr _ _ _ t u hres (fun x hx => by
        have := hpc.2 x hx
        rw [Bool.or_eq_false_iff] at this; exact this.1) (fun h => absurd h hp) ht2).1
      refine ⟨i1, i2, i3, hu0, ?_⟩
      intro x hx
      rcases i4 x hx with h | h
      · exact hpc.2 x h
      · have := extra_nospace E x h
        simp [this.1, this.2.1]
    have hsp : E.U.isSpace ' ' = true := by rw [E.U.isSpace_ascii _ (by decide)]; decide
    rw [hout]
    refine ⟨?_, join_visible _ _ (by decide) fun u hu => (hprop u hu).2.1⟩
    unfold sanitizeList
    rw [hfl]
    dsimp only
    rw [join_strip _ _ outs hne (fun u hu => ⟨(hprop u hu).2.2.2.1, (hprop u hu).2.2.1⟩),
      if_neg (by simpa using join_ne _ outs hne fun u hu => (hprop u hu).2.2.2.1)]
    have : splitList E comma (join c%" " outs) = outs := by
      unfold splitList
      exact splitWs_join _ (by simp [hsp]) outs fun u hu => ⟨(hprop u hu).2.2.2.1, (hprop u hu).2.2.2.2⟩
    rw [this, tokens_fix E p rule tag attr outs fun u hu => (hprop u hu).1]
    obtain ⟨a, l, rfl⟩ := List.exists_cons_of_ne_nil hne
    rfl

/-! ### srcset -/

theorem splitC_join (sep : Char) (us : List Str) (hne : us ≠ []) (h : ∀ u ∈ us, sep ∉ u) (hs : sep ≠ ' ') :
    ∃ u r, us = u :: r ∧ splitC sep (join [sep, ' '] us) = u :: r.map (' ' :: ·) := by
  induction us with
  | nil => exact absurd rfl hne
  | cons u us ih =>
    refine ⟨u, us, rfl, ?_⟩
    cases us with
    | nil => rw [join, splitC_none _ _ (h u (by simp))]; rfl
    | cons v us =>
      obtain ⟨u', r', e1, e2⟩ := ih (by simp) (fun x hx => h x (by simp [hx]))
      simp only [List.cons.injEq] at e1
      obtain ⟨rfl, rfl⟩ := e1
      rw [join_cons2, show u ++ [sep, ' '] ++ join [sep, ' '] (v :: us) = u ++ sep :: (' ' :: join [sep, ' '] (v :: us)) by simp,
        splitC_append_sep, splitC_none _ _ (h u (by simp))]
      have : splitC sep (' ' :: join [sep, ' '] (v :: us)) = (' ' :: v) :: us.map (' ' :: ·) := by
        rw [splitC, e2]
        simp [Ne.symm hs]
      rw [this]
      rfl

theorem descriptor_idem (E : UrlEnv) (v d : Str) (h : sanitizeDescriptor E v = some d) :
    sanitizeDescriptor E d = some d ∧ stripInvisible d = d ∧ (∀ x ∈ d, E.U.isSpace x = false) ∧ ',' ∉ d := by
  have hshape := descriptor_shape E v d h
  unfold sanitizeDescriptor at h
  split at h
  · simp only [Option.some.injEq] at h; subst h; exact ⟨by simp [sanitizeDescriptor], by decide, by simp, by simp⟩
  · split at h
    · rename_i t0 hsp
      have hpc := splitWs_pieces E.U.isSpace v [] (by simp) t0 (by rw [hsp]; simp)
      dsimp only at h
      have hd : d = E.U.lower t0 := by
        generalize E.U.lower t0 = t at h
        split at h
        · split at h
          · simp at h
          · simpa using h.symm
        · split at h
          · split at h
            · simp at h
            · split at h
              · simp at h
              · simpa using h.symm
          · simp at h
      subst hd
      have hns : ∀ x ∈ E.U.lower t0, E.U.isSpace x = false := E.U.lower_space t0 hpc.2
      have hne : E.U.lower t0 ≠ [] := E.U.lower_ne t0 hpc.1
      refine ⟨?_, ?_, hns, ?_⟩
      · unfold sanitizeDescriptor
        rw [if_neg (by simpa using hne), splitWs_last E.U.isSpace _ [] hns (by simpa using hne)]
        dsimp only
        rw [List.reverse_nil, List.nil_append, E.U.lower_idem]
        exact h
      · rw [strip_vis_iff]
        have dec : ∀ c, isInvisible c = false → ¬ Invisible c := by
          intro c hc hi
          have : c ∈ stripInvisible [c] := by
            unfold stripInvisible
            split
            · simp
            · simp [hc]
          exact C55_none_left _ _ this hi
        have fin : ∀ (t : Str) (k : Char), endsWith [k] t = true → t = t.dropLast ++ [k] := by
          intro t k hk
          unfold endsWith at hk
          rw [List.isSuffixOf_iff_suffix] at hk
          obtain ⟨r, hr⟩ := hk
          rw [← hr]; simp
        generalize E.U.lower t0 = t at h
        intro c hc
        have build : ∀ k : Char, isAscii k = true → endsWith [k] t = true → (∀ x ∈ t.dropLast, ¬ Invisible x) → ¬ Invisible c := by
          intro k hk he hl
          rw [fin t k he, List.mem_append] at hc
          rcases hc with hc | hc
          · exact hl c hc
          · rw [List.mem_singleton.1 hc]; exact ascii_visible k hk
        split at h
        · rename_i hwh
          rw [Option.ite_none_left_eq_some] at h
          have hall := h.1
          simp only [Bool.or_eq_true, not_or, Bool.not_eq_true', Bool.not_eq_false'] at hall
          have hd : ∀ x ∈ t.dropLast, ¬ Invisible x := by
            have := hall.1.2
            simp only [Bool.not_eq_false, List.all_eq_true] at this
            intro x hx
            exact dec x (E.isDecimal_visible x (this x hx))
          rw [Bool.or_eq_true] at hwh
          rcases hwh with hw | hw
          · exact build 'w' (by decide) hw hd
          · exact build 'h' (by decide) hw hd
        · split at h
          · rename_i hx
            rw [Option.ite_none_left_eq_some] at h
            refine build 'x' (by decide) hx ?_
            have hdm := h.1
            simp only [Bool.not_eq_true', Bool.not_eq_false, densityMatch, Bool.and_eq_true] at hdm
            intro x hxm
            have dig : ∀ y, isDigitC y = true → ¬ Invisible y := by
              intro y hy; apply ascii_visible; rw [isAscii_iff]; have := (isDigitC_iff y).1 hy; omega
            rcases hpa : partitionC '.' t.dropLast with ⟨a, dot, b⟩
            have hdm2 := hdm.2
            rw [hpa] at hdm2
            dsimp only at hdm2
            have hcases := partitionC_eq '.' _ _ _ _ hpa
            cases dot with
            | true =>
              simp only [if_true, Bool.and_eq_true, List.all_eq_true] at hdm2
              have : t.dropLast = a ++ '.' :: b := by
                rcases hcases with h | h
                · exact h.2.1
                · simp at h
              rw [this, List.mem_append, List.mem_cons] at hxm
              rcases hxm with h | rfl | h
              · exact dig x (hdm2.1.1 x h)
              · exact ascii_visible _ (by decide)
              · exact dig x (hdm2.1.2 x h)
            | false =>
              simp only [Bool.false_eq_true, if_false, Bool.and_eq_true, List.all_eq_true] at hdm2
              have : t.dropLast = a := by
                rcases hcases with h | h
                · simp at h
                · exact h.2.1.symm
              rw [this] at hxm
              exact dig x (hdm2.1 x hxm)
          · simp at h
      · rcases hshape with h | ⟨h, -⟩
        · exact absurd h hne
        · intro hm; exact (h _ hm).2.1 rfl
    · simp at h


theorem candidate_idem (E : UrlEnv) (p : UrlPolicy) (rule : UrlRule) (tag attr c o : Str) (hc : ',' ∉ c)
    (hp : effHandling p rule ≠ .proxy) (hres : ∀ r, rule.resolve = some r → SchemeName r)
    (hk : sanitizeCandidate E p rule tag attr c = some o) :
    sanitizeCandidate E p rule tag attr o = some o ∧ stripInvisible o = o ∧ stripP E.U.isSpace o = o ∧ o ≠ [] ∧ ',' ∉ o := by
  have hsp : E.U.isSpace ' ' = true := by rw [E.U.isSpace_ascii _ (by decide)]; decide
  unfold sanitizeCandidate at hk
  dsimp only at hk
  cases hu : sanitizeUrl E rule tag attr (effHandling p rule) (effAllowRelative p rule) (effProxy p rule) none (c.takeWhile fun x => !E.U.isSpace x) with
  | none => rw [hu] at hk; simp at hk
  | some u =>
    rw [hu] at hk
    dsimp only at hk
    cases hd : sanitizeDescriptor E (stripP E.U.isSpace (c.dropWhile fun x => !E.U.isSpace x)) with
    | none => rw [hd] at hk; simp at hk
    | some d =>
      rw [hd] at hk
      simp only [Option.some.injEq] at hk
      obtain ⟨i1, i2, i3, i4⟩ := url_idem E rule tag attr _ _ _ _ u hp hres hu
      obtain ⟨d1, d2, d3, d4⟩ := descriptor_idem E _ d hd
      have htok : ∀ x ∈ c.takeWhile (fun x => !E.U.isSpace x), E.U.isSpace x = false := by
        intro x hx; simpa using takeWhile_prop _ _ _ hx
      have hkt := kept_token E rule tag attr _ _ _ _ u hres htok (fun h => absurd h hp) hu
      have hucomma : ',' ∉ u := by
        intro hm
        rcases i4 _ hm with h | h
        · exact hc (List.takeWhile_subset _ h)
        · exact (extra_nospace E _ h).2.1 rfl
      by_cases hd0 : d = []
      · subst hd0
        have ho : o = u := by
          rw [← hk]
          have e : stripP E.U.isSpace (u ++ [' ']) = u := by
            unfold stripP lstripP rstripP
            have hun := hkt.1
            obtain ⟨a, r, rfl⟩ := List.exists_cons_of_ne_nil hun
            rw [List.cons_append, List.dropWhile_cons, if_neg (by simp [hkt.2.1 a (by simp)]), ← List.cons_append, List.reverse_append]
            rw [List.reverse_singleton, List.singleton_append, List.dropWhile_cons, if_pos hsp]
            have : (a :: r).reverse.dropWhile E.U.isSpace = (a :: r).reverse := by
              have hz : ∀ x ∈ (a :: r).reverse, E.U.isSpace x = false := fun x hx => hkt.2.1 x (List.mem_reverse.1 hx)
              cases hh : (a :: r).reverse with
              | nil => rfl
              | cons y l => rw [hh] at hz; rw [List.dropWhile_cons, if_neg (by simp [hz y (by simp)])]
            rw [this, List.reverse_reverse]
          simpa using e
        subst ho
        refine ⟨?_, i2, i3, hkt.1, hucomma⟩
        unfold sanitizeCandidate
        dsimp only
        rw [takeWhile_all _ o (fun x hx => by simp [hkt.2.1 x hx]), i1]
        dsimp only
        rw [dropWhile_allU _ o (fun x hx => by simp [hkt.2.1 x hx])]
        have : sanitizeDescriptor E (stripP E.U.isSpace []) = some [] := rfl
        rw [this]
        dsimp only
        rw [hk]
      · have ho : o = u ++ ' ' :: d := by
          rw [← hk, show u ++ c%" " ++ d = u ++ ' ' :: d by simp]
          apply stripP_fix
          · intro y hy
            obtain ⟨a, r, rfl⟩ := List.exists_cons_of_ne_nil hkt.1
            simp at hy; subst hy; exact hkt.2.1 _ (by simp)
          · intro y hy
            rw [show u ++ ' ' :: d = (u ++ [' ']) ++ d by simp, List.getLast?_append, List.getLast?_eq_some_getLast hd0] at hy
            simp only [Option.some_or, Option.some.injEq] at hy
            rw [← hy]; exact d3 _ (List.getLast_mem hd0)
        have hstrip : stripP E.U.isSpace o = o := by rw [← hk, stripP_stripP]
        refine ⟨?_, ?_, hstrip, ?_, ?_⟩
        · have hnp : ∀ x ∈ u, (fun x => !E.U.isSpace x) x = true := fun x hx => by simp [hkt.2.1 x hx]
          have e1 : o.takeWhile (fun x => !E.U.isSpace x) = u := by
            rw [ho]; exact takeWhile_append_stopU _ u ' ' d hnp (by simp [hsp])
          have e2 : stripP E.U.isSpace (o.dropWhile (fun x => !E.U.isSpace x)) = d := by
            rw [ho, dropWhile_append_stop _ u ' ' d hnp (by simp [hsp])]
            have : stripP E.U.isSpace (' ' :: d) = stripP E.U.isSpace d := by
              unfold stripP lstripP; rw [List.dropWhile_cons, if_pos hsp]
            rw [this]
            apply stripP_fix
            · intro y hy; exact d3 y (List.mem_of_head? hy)
            · intro y hy; exact d3 y (List.mem_of_getLast? hy)
          unfold sanitizeCandidate
          dsimp only
          rw [e1, i1]
          dsimp only
          rw [e2, d1]
          dsimp only
          rw [hk]
        · rw [ho, strip_vis_iff]
          intro x hx
          rw [List.mem_append, List.mem_cons] at hx
          rcases hx with hx | rfl | hx
          · exact (strip_vis_iff u).1 i2 x hx
          · exact ascii_visible _ (by decide)
          · exact (strip_vis_iff d).1 d2 x hx
        · rw [ho]; simp
        · rw [ho, List.mem_append, List.mem_cons]
          rintro (h | h | h)
          · exact hucomma h
          · simp at h
          · exact d4 h

theorem candidates_fix (E : UrlEnv) (p : UrlPolicy) (rule : UrlRule) (tag attr : Str) (us raws : List Str)
    (hr : List.Forall₂ (fun r u => stripP E.U.isSpace r = u) raws us)
    (h : ∀ u ∈ us, u ≠ [] ∧ sanitizeCandidate E p rule tag attr u = some u) :
    sanitizeCandidates E p rule tag attr raws = some us := by
  induction hr with
  | nil => rfl
  | @cons r u raws us h1 h2 ih =>
    have hu := h u (by simp)
    rw [sanitizeCandidates, h1]
    rw [if_neg (by simpa using hu.1), hu.2]
    dsimp only
    rw [ih fun x hx => h x (by simp [hx])]; rfl

theorem srcset_idem (E : UrlEnv) (p : UrlPolicy) (rule : UrlRule) (tag attr v out : Str) (hf : p.filter = none)
    (hp : effHandling p rule ≠ .proxy) (hres : ∀ r, rule.resolve = some r → SchemeName r)
    (hk : sanitizeSrcset E p rule tag attr v = some out) :
    sanitizeSrcset E p rule tag attr out = some out ∧ stripInvisible out = out := by
  have hsp : E.U.isSpace ' ' = true := by rw [E.U.isSpace_ascii _ (by decide)]; decide
  unfold sanitizeSrcset at hk
  have hfl : ∀ x, applyListFilter p tag attr x = some x := by intro x; simp [applyListFilter, hf]
  rw [hfl] at hk
  dsimp only at hk
  rw [Option.ite_none_left_eq_some] at hk
  replace hk := hk.2
  cases ht : sanitizeCandidates E p rule tag attr (splitC ',' (stripP E.U.isSpace v)) with
  | none => rw [ht] at hk; simp at hk
  | some outs =>
    rw [ht] at hk
    have hfa := sanitizeCandidates_spec E p rule tag attr _ outs ht
    have hne : outs ≠ [] := by rintro rfl; simp at hk
    have hout : out = join c%", " outs := by
      obtain ⟨a, l, rfl⟩ := List.exists_cons_of_ne_nil hne
      simpa using hk.symm
    have hprop : ∀ u ∈ outs, sanitizeCandidate E p rule tag attr u = some u ∧ stripInvisible u = u ∧ stripP E.U.isSpace u = u ∧ u ≠ [] ∧ ',' ∉ u := by
      intro u hu
      obtain ⟨c, hc1, hc2⟩ := forall2_right hfa u hu
      refine candidate_idem E p rule tag attr c u ?_ hp hres hc2
      rw [List.mem_filter, List.mem_map] at hc1
      obtain ⟨⟨raw, hraw, rfl⟩, -⟩ := hc1
      exact fun h => splitC_pieces ',' _ raw hraw (stripP_sub _ _ _ h)
    rw [hout]
    refine ⟨?_, join_visible _ _ (by decide) fun u hu => (hprop u hu).2.1⟩
    unfold sanitizeSrcset
    rw [hfl]
    dsimp only
    rw [join_strip _ _ outs hne (fun u hu => ⟨(hprop u hu).2.2.2.1, (hprop u hu).2.2.1⟩),
      if_neg (by simpa using join_ne _ outs hne fun u hu => (hprop u hu).2.2.2.1)]
    obtain ⟨u, r, e1, e2⟩ := splitC_join ',' outs hne (fun u hu => (hprop u hu).2.2.2.2) (by decide)
    have hfix : sanitizeCandidates E p rule tag attr (splitC ',' (join c%", " outs)) = some outs := by
      apply candidates_fix E p rule tag attr outs _ ?_ fun u hu => ⟨(hprop u hu).2.2.2.1, (hprop u hu).1⟩
      rw [e2]
      subst e1
      refine .cons (hprop u (by simp)).2.2.1 ?_
      have : ∀ l : List Str, (∀ x ∈ l, stripP E.U.isSpace x = x) → List.Forall₂ (fun r u => stripP E.U.isSpace r = u) (l.map (' ' :: ·)) l := by
        intro l
        induction l with
        | nil => intro _; exact .nil
        | cons a l ih =>
          intro hl
          refine .cons ?_ (ih fun x hx => hl x (by simp [hx]))
          rw [← hl a (by simp)]
          conv => rhs; rw [← hl a (by simp)]
          rw [hl a (by simp)]
          unfold stripP lstripP; rw [List.dropWhile_cons, if_pos hsp]
      exact this r fun x hx => (hprop x (by simp [hx])).2.2.1
    rw [hfix]
    obtain ⟨a, l, rfl⟩ := List.exists_cons_of_ne_nil hne
    rfl

/-! ### Styles -/

theorem value_idem (E : UrlEnv) (pol : UrlPolicy) (tag prop v o : Str) (hr : cssRule pol tag prop = none)
    (h : cssValue E (some pol) tag prop v = some o) : o = v ∧ v ≠ [] := by
  unfold cssValue at h
  split at h
  · simp at h
  · rename_i hne
    split at h
    · simp at h
    · split at h
      · dsimp only at h
        split at h
        · simp at h
        · unfold cssUrls at h; rw [hr] at h; simp at h
      · exact ⟨by simpa using h.symm, by simpa using hne⟩

theorem style_idem (E : UrlEnv) (allowed : List Str) (pol : UrlPolicy) (tag v out : Str) (hr : ∀ prop, cssRule pol (E.U.lower tag) prop = none)
    (h : sanitizeStyle E allowed (some pol) tag v = some out) :
    sanitizeStyle E allowed (some pol) tag out = some out ∧ (stripInvisible v = v → stripInvisible out = out) := by
  have hsp : E.U.isSpace ' ' = true := by rw [E.U.isSpace_ascii _ (by decide)]; decide
  have asc : ∀ prop, validCssProp prop = true → ∀ x ∈ prop, isAscii x = true ∧ E.U.isSpace x = false ∧ isUpperC x = false := by
    intro prop hv x hx
    have hch := (validProp_char prop hv).2 x hx
    have hx : 45 ≤ x.toNat ∧ x.toNat ≤ 122 ∧ ¬ (65 ≤ x.toNat ∧ x.toNat ≤ 90) := by
      rcases hch with h | h | rfl
      · have := (isLowerC_iff x).1 h; omega
      · have := (isDigitC_iff x).1 h; omega
      · decide
    have hasc : isAscii x = true := by simp only [isAscii, decide_eq_true_eq]; omega
    refine ⟨hasc, ?_, ?_⟩
    · rw [E.U.isSpace_ascii x hasc]
      simp only [Bool.or_eq_false_iff, Bool.and_eq_false_iff, decide_eq_false_iff_not]
      refine ⟨⟨?_, by omega⟩, by omega⟩
      rintro rfl
      have : ' '.toNat = 32 := rfl
      omega
    · cases hu : isUpperC x with
      | false => rfl
      | true => exact absurd ((isUpperC_iff x).1 hu) hx.2.2
  -- one kept declaration
  have one : ∀ piece d, piece ∈ splitC ';' v → cssDecl E allowed (some pol) (E.U.lower tag) piece = some d →
      stripP E.U.isSpace (cssText d) = cssText d ∧ cssText d ≠ [] ∧ ';' ∉ cssText d ∧ cssDecl E allowed (some pol) (E.U.lower tag) (cssText d) = some d ∧
      (stripInvisible v = v → stripInvisible (cssText d) = cssText d) := by
    intro piece d hpc hd
    have hps := splitC_pieces ';' v piece hpc
    have hpm := splitC_mem ';' v piece hpc
    unfold cssDecl at hd
    dsimp only at hd
    rw [Option.ite_none_left_eq_some, Option.ite_none_left_eq_some, Option.map_eq_some_iff] at hd
    obtain ⟨h1, h2, val, h3, h4⟩ := hd
    generalize hprop : E.U.lower (stripP E.U.isSpace ((stripP E.U.isSpace piece).takeWhile (· ≠ ':'))) = prop at h2 h3 h4
    generalize hraw : stripP E.U.isSpace (((stripP E.U.isSpace piece).dropWhile (· ≠ ':')).drop 1) = raw at h3
    obtain ⟨hv, hne⟩ := value_idem E pol _ prop raw val (hr prop) h3
    subst hv h4
    simp only [Bool.or_eq_true, not_or, Bool.not_eq_true', Bool.not_eq_false] at h2
    obtain ⟨hvalid, hall⟩ := h2
    have hpne := (validProp_char prop hvalid).1
    have hpa := asc prop hvalid
    have hvs : stripP E.U.isSpace val = val := by rw [← hraw, stripP_stripP]
    have hvm : ∀ x ∈ val, x ∈ piece := by
      intro x hx
      rw [← hraw] at hx
      have hx1 := stripP_sub _ _ _ hx
      have hx2 := List.mem_of_mem_drop hx1
      exact stripP_sub _ _ _ ((List.dropWhile_sublist _).subset hx2)
    have hcol : ':' ∉ prop := validProp_not prop hvalid ':' (by decide)
    have hlow : E.U.lower prop = prop := by rw [← hprop, E.U.lower_idem]
    have hst : stripP E.U.isSpace (prop ++ c%": " ++ val) = prop ++ c%": " ++ val := by
      apply stripP_fix
      · intro y hy
        obtain ⟨a, r, rfl⟩ := List.exists_cons_of_ne_nil hpne
        simp at hy; subst hy; exact (hpa _ (by simp)).2.1
      · intro y hy
        rw [List.getLast?_append, List.getLast?_eq_some_getLast hne] at hy
        simp only [Option.some_or, Option.some.injEq] at hy
        rw [← hy]
        have := stripP_last E.U.isSpace val (val.getLast hne) (by rw [hvs]; exact List.getLast?_eq_some_getLast hne)
        exact this
    refine ⟨hst, by simp [cssText], ?_, ?_, ?_⟩
    · simp only [cssText, List.mem_append, not_or]
      exact ⟨⟨validProp_not prop hvalid ';' (by decide), by simp⟩, fun hm => hps (hvm _ hm)⟩
    · unfold cssDecl
      dsimp only
      simp only [show stripP E.U.isSpace (cssText (prop, val)) = prop ++ c%": " ++ val from hst]
      have hne2 : ∀ x ∈ prop, (fun c => decide (c ≠ ':')) x = true := by
        intro x hx
        simp only [ne_eq, decide_eq_true_eq]
        rintro rfl; exact hcol hx
      have e1 : (prop ++ c%": " ++ val).takeWhile (fun c => decide (c ≠ ':')) = prop := by
        rw [show prop ++ c%": " ++ val = prop ++ ':' :: (' ' :: val) by simp]
        exact takeWhile_append_stopU _ prop ':' _ hne2 (by simp)
      have e2 : (prop ++ c%": " ++ val).dropWhile (fun c => decide (c ≠ ':')) = ':' :: ' ' :: val := by
        rw [show prop ++ c%": " ++ val = prop ++ ':' :: (' ' :: val) by simp]
        exact dropWhile_append_stop _ prop ':' _ hne2 (by simp)
      rw [if_neg]
      · have e3 : stripP E.U.isSpace prop = prop := by
          apply stripP_fix
          · intro y hy; exact (hpa y (List.mem_of_head? hy)).2.1
          · intro y hy; exact (hpa y (List.mem_of_getLast? hy)).2.1
        have e4 : stripP E.U.isSpace ((':' :: ' ' :: val).drop 1) = val := by
          have : stripP E.U.isSpace (' ' :: val) = stripP E.U.isSpace val := by
            unfold stripP lstripP; rw [List.dropWhile_cons, if_pos hsp]
          rw [List.drop_one, List.tail_cons, this, hvs]
        rw [e1, e2, e3, hlow, e4, if_neg (by
          simp only [Bool.or_eq_true, not_or, Bool.not_eq_true', Bool.not_eq_false]; exact ⟨hvalid, hall⟩), h3]
        rfl
      · obtain ⟨a, r, rfl⟩ := List.exists_cons_of_ne_nil hpne
        have : a ≠ ':' := fun e => hcol (by simp [e])
        simp [this]
    · intro hi
      rw [strip_vis_iff] at hi ⊢
      intro x hx
      simp only [cssText, List.mem_append] at hx
      rcases hx with (hx | hx) | hx
      · exact ascii_visible x (hpa x hx).1
      · exact (strip_vis_iff c%": ").1 (by decide) x hx
      · exact hi x (hpm x (hvm x hx))
  unfold sanitizeStyle at h
  rw [Option.ite_none_left_eq_some] at h
  obtain ⟨h0, h⟩ := h
  generalize hds : cssDecls E allowed (some pol) tag v = ds at h
  have hne : ds ≠ [] := by rintro rfl; simp at h
  have hout : out = join c%"; " (ds.map cssText) := by
    obtain ⟨a, l, rfl⟩ := List.exists_cons_of_ne_nil hne
    simpa using h.symm
  have hprop : ∀ d ∈ ds, stripP E.U.isSpace (cssText d) = cssText d ∧ cssText d ≠ [] ∧ ';' ∉ cssText d ∧
      cssDecl E allowed (some pol) (E.U.lower tag) (cssText d) = some d ∧ (stripInvisible v = v → stripInvisible (cssText d) = cssText d) := by
    intro d hd
    rw [← hds] at hd
    unfold cssDecls at hd
    obtain ⟨piece, hp1, hp2⟩ := List.mem_filterMap.1 hd
    exact one piece d hp1 hp2
  have hmne : ds.map cssText ≠ [] := by simpa using hne
  have hcons : ∀ t ∈ ds.map cssText, ∃ d ∈ ds, t = cssText d := by
    intro t ht; obtain ⟨d, hd, rfl⟩ := List.mem_map.1 ht; exact ⟨d, hd, rfl⟩
  constructor
  · have hone : out ≠ [] := by
      rw [hout]; apply join_ne _ _ hmne
      intro t ht; obtain ⟨d, hd, rfl⟩ := hcons t ht; exact (hprop d hd).2.1
    have hallowed : allowed.isEmpty = false := by
      cases ha : allowed.isEmpty with
      | false => rfl
      | true => simp [ha] at h0
    have hdecls : cssDecls E allowed (some pol) tag out = ds := by
      unfold cssDecls
      obtain ⟨u, r, e1, e2⟩ := splitC_join ';' (ds.map cssText) hmne (fun t ht => by
        obtain ⟨d, hd, rfl⟩ := hcons t ht; exact (hprop d hd).2.2.1) (by decide)
      rw [hout, e2]
      have lead : ∀ t, cssDecl E allowed (some pol) (E.U.lower tag) (' ' :: t) = cssDecl E allowed (some pol) (E.U.lower tag) t := by
        intro t
        unfold cssDecl
        have : stripP E.U.isSpace (' ' :: t) = stripP E.U.isSpace t := by unfold stripP lstripP; rw [List.dropWhile_cons, if_pos hsp]
        rw [this]
      have e3 : (u :: r.map (' ' :: ·)).filterMap (cssDecl E allowed (some pol) (E.U.lower tag)) = (u :: r).filterMap (cssDecl E allowed (some pol) (E.U.lower tag)) := by
        rw [List.filterMap_cons, List.filterMap_cons, List.filterMap_map]
        have : (cssDecl E allowed (some pol) (E.U.lower tag) ∘ fun x => ' ' :: x) = cssDecl E allowed (some pol) (E.U.lower tag) := by
          funext t; exact lead t
        rw [this]
      rw [e3, ← e1, List.filterMap_map]
      have : ∀ l : List (Str × Str), (∀ d ∈ l, cssDecl E allowed (some pol) (E.U.lower tag) (cssText d) = some d) →
          l.filterMap (cssDecl E allowed (some pol) (E.U.lower tag) ∘ cssText) = l := by
        intro l
        induction l with
        | nil => intro _; rfl
        | cons a l ih =>
          intro hl
          rw [List.filterMap_cons, Function.comp, hl a (by simp)]
          dsimp only
          rw [ih fun d hd => hl d (by simp [hd])]
      exact this ds fun d hd => (hprop d hd).2.2.2.1
    unfold sanitizeStyle
    rw [hdecls, if_neg (by simp [hallowed, hone])]
    exact h
  · intro hi
    rw [hout]
    apply join_visible _ _ (by decide)
    intro t ht
    obtain ⟨d, hd, rfl⟩ := hcons t ht
    exact (hprop d hd).2.2.2.2 hi

end JH
