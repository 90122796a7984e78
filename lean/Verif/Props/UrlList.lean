import Verif.Props.Url
import Verif.Spec.UrlList
/-! C19, C20, C22: attributes with several URLs, and meta refresh. -/
namespace JH
open Spec

theorem stripInvisible_sub (v : Str) (x : Char) (h : x ∈ stripInvisible v) : x ∈ v := by
  classical
  rw [C55_exact] at h
  exact (List.mem_filter.mp h).1

theorem isSpace_ws (E : UrlEnv) (x : Char) (h : ws x = true) : E.U.isSpace x = true := by
  simp only [ws, List.mem_cons, List.not_mem_nil, or_false, decide_eq_true_eq] at h
  rcases h with rfl | rfl | rfl | rfl | rfl <;> rw [E.U.isSpace_ascii _ (by decide)] <;> decide

theorem isSpace_not_urlws (E : UrlEnv) (x : Char) (ha : isAscii x = true) (h : isUrlWs x = false) : E.U.isSpace x = false := by
  rw [E.U.isSpace_ascii _ ha]
  simp only [isUrlWs, Bool.or_eq_false_iff, decide_eq_false_iff_not] at h
  simp only [Bool.or_eq_false_iff, Bool.and_eq_false_iff, decide_eq_false_iff_not]
  refine ⟨⟨?_, by omega⟩, by omega⟩
  rintro rfl
  exact h.1 (by decide)

/-- A proxy whose URL can stand inside a list of URLs. -/
def ListProxy (E : UrlEnv) (p : UrlProxy) : Prop :=
  p.url ≠ [] ∧ (∀ x ∈ p.url, E.U.isSpace x = false) ∧ p.url.head? ≠ some ','

/-- The shape of a URL kept for one token of a list. -/
theorem kept_token (E : UrlEnv) (rule : UrlRule) (tag attr : Str) (h : UrlHandling) (rel : Bool) (proxy : Option UrlProxy)
    (t u : Str) (hres : ∀ r, rule.resolve = some r → SchemeName r) (ht : ∀ x ∈ t, E.U.isSpace x = false)
    (hp : h = .proxy → ∀ p, proxy = some p → ListProxy E p) (hk : sanitizeUrl E rule tag attr h rel proxy none t = some u) :
    u ≠ [] ∧ (∀ x ∈ u, E.U.isSpace x = false) ∧ (',' ∉ t → u.head? ≠ some ',' ∧ u.getLast? ≠ some ',') := by
  unfold sanitizeUrl at hk
  dsimp only at hk
  obtain ⟨hc, hb, hne, -, v, ha, hf⟩ := checkStripped_accept E rule h rel proxy _ u (stripP_head _ _) (stripP_last _ _) hk
  have hsub : ∀ x ∈ stripP E.U.isSpace (stripInvisible t), x ∈ t := fun x hx => stripInvisible_sub _ _ (stripP_sub _ _ _ hx)
  generalize stripP E.U.isSpace (stripInvisible t) = s at *
  have hv : v ≠ [] ∧ (∀ x ∈ v, E.U.isSpace x = false) ∧ (',' ∉ t → ',' ∉ v) := by
    have hs : s ≠ [] ∧ (∀ x ∈ s, E.U.isSpace x = false) ∧ (',' ∉ t → ',' ∉ s) :=
      ⟨hne, fun x hx => ht x (hsub x hx), fun h h' => h (hsub _ h')⟩
    cases ha with
    | fragment => exact hs
    | bare => exact hs
    | absolute => exact hs
    | relative => exact hs
    | resolved r0 h1 h2 h3 h4 _ =>
      have hval := (schemeName_iff r0).mp (hres r0 h1)
      have hva := validScheme_char r0 hval
      rw [E.U.lower_ascii _ (List.all_eq_true.mpr fun x hx => (hva x hx).2.2.2.2.2.2)]
      have hvl := lowerA_valid r0 hval
      have hvc := validScheme_char _ hvl
      refine ⟨by simp, ?_, ?_⟩
      · intro x hx
        rw [List.mem_append, List.mem_append] at hx
        rcases hx with (hx | hx) | hx
        · exact isSpace_not_urlws E x (hvc x hx).2.2.2.2.2.2 (hvc x hx).2.2.2.2.2.1
        · simp at hx; rw [hx]; exact isSpace_not_urlws E _ (by decide) (by decide)
        · rw [normUrl_eq, List.mem_filter] at hx; exact hs.2.1 x hx.1
      · intro hct hx
        rw [List.mem_append, List.mem_append] at hx
        rcases hx with (hx | hx) | hx
        · have hcm := (splitScheme_iff (lowerA r0 ++ [':']) _ []).mpr ⟨rfl, hvl⟩
          have : schemeChar ',' = true := by
            cases hr : lowerA r0 with
            | nil => rw [hr] at hx; simp at hx
            | cons f r =>
              rw [hr] at hvl hx
              simp only [isValidScheme, Bool.and_eq_true, List.all_eq_true] at hvl
              rw [schemeChar_eq]
              rcases List.mem_cons.mp hx with e | hx
              · rw [e]; simp [hvl.1]
              · exact hvl.2 _ hx
          exact absurd this (by decide)
        · simp at hx
        · rw [normUrl_eq, List.mem_filter] at hx; exact hs.2.2 hct hx.1
  cases h with
  | strip => simp [finishUrl] at hf
  | allow =>
    simp only [finishUrl, Option.some.injEq] at hf
    subst hf
    exact ⟨hv.1, hv.2.1, fun h => ⟨fun e => hv.2.2 h (List.mem_of_head? e), fun e => hv.2.2 h (List.mem_of_getLast? e)⟩⟩
  | proxy =>
    unfold finishUrl at hf
    cases proxy with
    | none => simp at hf
    | some p =>
      simp only [Option.map_some, Option.some.injEq] at hf
      obtain ⟨p1, p2, p3⟩ := hp rfl p rfl
      obtain ⟨c, r, hcr⟩ := List.exists_cons_of_ne_nil p1
      have htail : ∃ y z, u = p.url ++ y :: z ∧ ∀ x ∈ y :: z, E.U.isSpace x = false ∧ x ≠ ',' := by
        have tail : ∀ y, (y = '?' ∨ y = '&') → ∀ x ∈ y :: (urlQuote (fun _ => false) p.param ++ c%"=" ++ urlQuote (fun _ => false) v),
            E.U.isSpace x = false ∧ x ≠ ',' := by
          have q : ∀ w x, x ∈ urlQuote (fun _ => false) w → E.U.isSpace x = false ∧ x ≠ ',' := by
            intro w x hx
            have := quote_none_not w x hx
            exact ⟨isSpace_not_urlws E x this.2.2.2.2.2.2.2.2.2.2.2.2.2.2 this.2.2.2.2.2.2.2.1, this.2.2.2.2.2.2.2.2.1⟩
          intro y hy x hx
          rw [List.mem_cons, List.mem_append, List.mem_append] at hx
          rcases hx with hx | (hx | hx) | hx
          · rw [hx]
            rcases hy with rfl | rfl
            · exact ⟨isSpace_not_urlws E _ (by decide) (by decide), by decide⟩
            · exact ⟨isSpace_not_urlws E _ (by decide) (by decide), by decide⟩
          · exact q _ x hx
          · simp at hx; rw [hx]; exact ⟨isSpace_not_urlws E _ (by decide) (by decide), by decide⟩
          · exact q _ x hx
        rw [← hf]
        unfold proxyUrl
        by_cases hq : p.url.contains '?' = true
        · rw [if_pos hq]
          exact ⟨'&', urlQuote (fun _ => false) p.param ++ c%"=" ++ urlQuote (fun _ => false) v, by simp, tail _ (.inr rfl)⟩
        · rw [if_neg hq]
          exact ⟨'?', urlQuote (fun _ => false) p.param ++ c%"=" ++ urlQuote (fun _ => false) v, by simp, tail _ (.inl rfl)⟩
      obtain ⟨y, z, e, hyz⟩ := htail
      refine ⟨by rw [e]; simp, ?_, ?_⟩
      · intro x hx
        rw [e] at hx
        rcases List.mem_append.mp hx with hx | hx
        · exact p2 x hx
        · exact (hyz x hx).1
      · intro _
        constructor
        · rw [e, hcr]; rw [hcr] at p3; simpa using p3
        · intro hl
          rw [e, List.getLast?_append] at hl
          cases hg : (y :: z).getLast? with
          | none => simp at hg
          | some w =>
            rw [hg] at hl
            simp at hl
            exact (hyz w (List.mem_of_getLast? hg)).2 hl

/-! ### C20 -/

theorem runs_cons (sep : Char → Bool) (c : Char) (t : Str) (h : sep c = false) :
    runs sep (c :: t) = (c :: t.takeWhile (fun x => !sep x)) :: runs sep (t.dropWhile (fun x => !sep x)) := by
  induction t generalizing c with
  | nil => simp [runs, h]
  | cons d t ih =>
    rw [runs]
    simp only [h, Bool.false_eq_true, if_false]
    by_cases hd : sep d = true
    · rw [if_pos hd]; simp [hd]
    · rw [Bool.not_eq_true] at hd
      rw [if_neg (by simp [hd]), ih d hd]
      simp [hd]

theorem splitWs_acc (sep : Char → Bool) (s : Str) : ∀ w : Str, w ≠ [] →
    splitWs sep w s = (w.reverse ++ s.takeWhile (fun x => !sep x)) :: splitWs sep [] (s.dropWhile (fun x => !sep x)) := by
  induction s with
  | nil => intro w hw; simp [splitWs, hw]
  | cons c s ih =>
    intro w hw
    rw [splitWs]
    by_cases hc : sep c = true
    · rw [if_pos hc, if_neg (by simpa using hw)]
      simp only [List.takeWhile_cons, List.dropWhile_cons, hc]
      simp [splitWs, hc]
    · rw [if_neg hc, ih (c :: w) (by simp)]
      rw [Bool.not_eq_true] at hc
      simp [hc]

theorem splitWs_runs (sep : Char → Bool) (n : Nat) : ∀ s : Str, s.length ≤ n → splitWs sep [] s = runs sep s := by
  induction n with
  | zero => intro s h; have : s = [] := by simpa using h
            subst this; rfl
  | succ n ih =>
    intro s h
    cases s with
    | nil => rfl
    | cons c s =>
      have hs : s.length ≤ n := by simpa using h
      by_cases hc : sep c = true
      · rw [splitWs, if_pos hc, if_pos (by rfl), ih s hs, runs.eq_def sep (c :: s)]; dsimp only; rw [if_pos hc]
      · rw [Bool.not_eq_true] at hc
        rw [splitWs, if_neg (by simp [hc]), splitWs_acc sep s [c] (by simp), runs_cons sep c s hc, ih _ (by
          have := (List.dropWhile_sublist (fun x => !sep x) (l := s)).length_le
          omega)]
        rfl

theorem runs_pieces (sep : Char → Bool) (s t : Str) (h : t ∈ runs sep s) : t ≠ [] ∧ ∀ x ∈ t, sep x = false := by
  rw [← splitWs_runs sep s.length s (Nat.le_refl _)] at h
  exact splitWs_pieces sep s [] (by simp) t h

theorem dropWhile_allU (p : Char → Bool) (l : Str) (h : ∀ x ∈ l, p x = true) : l.dropWhile p = [] := by
  induction l with
  | nil => rfl
  | cons a l ih => rw [List.dropWhile_cons, if_pos (h a (by simp)), ih fun x hx => h x (by simp [hx])]

theorem words_join (us : List Str) (h : ∀ u ∈ us, u ≠ [] ∧ ∀ x ∈ u, ws x = false) : words (join c%" " us) = us := by
  have step : ∀ (u : Str) (rest : Str), u ≠ [] → (∀ x ∈ u, ws x = false) → words (u ++ ' ' :: rest) = u :: words rest := by
    intro u rest hne hu
    obtain ⟨c, r, rfl⟩ := List.exists_cons_of_ne_nil hne
    rw [List.cons_append, words_cons c _ (hu c (by simp))]
    have hr : ∀ x ∈ r, (!ws x) = true := fun x hx => by simp [hu x (by simp [hx])]
    rw [show (r ++ ' ' :: rest).takeWhile (fun x => !ws x) = r by
        induction r with
        | nil => rfl
        | cons y r ih => 
          rw [List.cons_append, List.takeWhile_cons, if_pos (hr y (by simp)), ih (by simp) (fun x hx => hu x (by
            rcases List.mem_cons.mp hx with h | h
            · simp [h]
            · simp [h])) (fun x hx => hr x (by simp [hx]))],
      show (r ++ ' ' :: rest).dropWhile (fun x => !ws x) = ' ' :: rest from dropWhile_append_stop _ r ' ' rest hr (by decide),
      words_ws ' ' rest (by decide)]
  induction us with
  | nil => rfl
  | cons u us ih =>
    have hu := h u (by simp)
    cases us with
    | nil =>
      rw [join]
      have := step u [] hu.1 hu.2
      obtain ⟨c, r, rfl⟩ := List.exists_cons_of_ne_nil hu.1
      rw [words_cons c r (hu.2 c (by simp)), takeWhile_all _ r (fun x hx => by simp [hu.2 x (by simp [hx])])]
      rw [show r.dropWhile (fun x => !ws x) = [] by
        exact dropWhile_allU _ r fun x hx => by simp [hu.2 x (by simp [hx])]]
      rfl
    | cons v us =>
      rw [show join c%" " (u :: v :: us) = u ++ ' ' :: join c%" " (v :: us) by rw [join]; simp; simp, step u _ hu.1 hu.2,
        ih (fun x hx => h x (by simp [hx]))]

theorem sanitizeTokens_forall (E : UrlEnv) (p : UrlPolicy) (rule : UrlRule) (tag attr : Str) (ts outs : List Str)
    (h : sanitizeTokens E p rule tag attr ts = some outs) :
    List.Forall₂ (fun t o => sanitizeUrl E rule tag attr (effHandling p rule) (effAllowRelative p rule) (effProxy p rule) none t = some o) ts outs := by
  induction ts generalizing outs with
  | nil => simp [sanitizeTokens] at h; subst h; exact .nil
  | cons t ts ih =>
    rw [sanitizeTokens] at h
    split at h
    · simp at h
    · rename_i s hs
      rw [Option.map_eq_some_iff] at h
      obtain ⟨o, h1, h2⟩ := h
      rw [← h2]
      exact .cons hs (ih o h1)

theorem sanitizeTokens_none (E : UrlEnv) (p : UrlPolicy) (rule : UrlRule) (tag attr : Str) (ts : List Str) (t : Str) (ht : t ∈ ts)
    (h : sanitizeUrl E rule tag attr (effHandling p rule) (effAllowRelative p rule) (effProxy p rule) none t = none) :
    sanitizeTokens E p rule tag attr ts = none := by
  induction ts with
  | nil => simp at ht
  | cons a ts ih =>
    rw [sanitizeTokens]
    rcases List.mem_cons.mp ht with rfl | ht
    · rw [h]
    · rw [ih ht]
      split <;> simp

/-- C20: a kept list of URLs, split at white space as a browser does, is item by item what the rule made of the items of the
input. -/
theorem C20_items (E : UrlEnv) (comma : Bool) (pol : UrlPolicy) (rule : UrlRule) (tag attr value out : Str)
    (hres : ∀ r, rule.resolve = some r → SchemeName r)
    (hp : effHandling pol rule = .proxy → ∀ p, effProxy pol rule = some p → ListProxy E p)
    (hk : sanitizeList E comma pol rule tag attr value = some out) :
    ∃ v, applyListFilter pol tag attr value = some v ∧
      List.Forall₂ (fun t o => sanitizeUrl E rule tag attr (effHandling pol rule) (effAllowRelative pol rule) (effProxy pol rule) none t = some o)
        (runs (fun c => E.U.isSpace c || (comma && c = ',')) (stripP E.U.isSpace v)) (words out) ∧ words out ≠ [] := by
  unfold sanitizeList at hk
  cases hf : applyListFilter pol tag attr value with
  | none => rw [hf] at hk; simp at hk
  | some v =>
    rw [hf] at hk
    dsimp only at hk
    rw [Option.ite_none_left_eq_some] at hk
    replace hk := hk.2
    refine ⟨v, rfl, ?_⟩
    cases ht : sanitizeTokens E pol rule tag attr (splitList E comma (stripP E.U.isSpace v)) with
    | none => rw [ht] at hk; simp at hk
    | some outs =>
      rw [ht] at hk
      have hfa := sanitizeTokens_forall E pol rule tag attr _ outs ht
      unfold splitList at hfa
      rw [splitWs_runs _ _ _ (Nat.le_refl _)] at hfa
      have hw : words (join c%" " outs) = outs := by
        apply words_join
        intro u hu
        have hmem : ∀ (l1 l2 : List Str) (R : Str → Str → Prop), List.Forall₂ R l1 l2 → ∀ b ∈ l2, ∃ a ∈ l1, R a b := by
          intro l1 l2 R h
          induction h with
          | nil => simp
          | cons h1 h2 ih =>
            intro b hb
            rcases List.mem_cons.mp hb with rfl | hb
            · exact ⟨_, by simp, h1⟩
            · obtain ⟨a, k1, k2⟩ := ih b hb
              exact ⟨a, by simp [k1], k2⟩
        obtain ⟨t, ht1, ht2⟩ := hmem _ _ _ hfa u hu
        have hpc := runs_pieces _ _ t ht1
        have := kept_token E rule tag attr _ _ _ t u hres (fun x hx => by
          have := hpc.2 x hx
          simp only [Bool.or_eq_false_iff] at this
          exact this.1) hp ht2
        refine ⟨this.1, fun x hx => ?_⟩
        cases hwx : ws x with
        | false => rfl
        | true => have h1 := isSpace_ws E x hwx; rw [this.2.1 x hx] at h1; exact h1.symm
      cases outs with
      | nil => simp at hk
      | cons o os =>
        simp only [Option.some.injEq] at hk
        rw [← hk, hw]
        exact ⟨hfa, by simp⟩

/-- C20: if the rule refuses one item, the whole attribute value is refused. -/
theorem C20_all_or_nothing (E : UrlEnv) (comma : Bool) (pol : UrlPolicy) (rule : UrlRule) (tag attr value v t : Str)
    (hv : applyListFilter pol tag attr value = some v)
    (ht : t ∈ runs (fun c => E.U.isSpace c || (comma && c = ',')) (stripP E.U.isSpace v))
    (hbad : sanitizeUrl E rule tag attr (effHandling pol rule) (effAllowRelative pol rule) (effProxy pol rule) none t = none) :
    sanitizeList E comma pol rule tag attr value = none := by
  unfold sanitizeList
  rw [hv]
  dsimp only
  split
  · rfl
  · unfold splitList
    rw [splitWs_runs _ _ _ (Nat.le_refl _), sanitizeTokens_none E pol rule tag attr _ t ht hbad]

example : sanitizeList UrlEnv.sample true {} { schemes := [c%"https"] } c%"a" c%"archive" c%" https://a/,x.jar\t y " =
    some c%"https://a/ x.jar y" := by decide
example : sanitizeList UrlEnv.sample false {} { schemes := [c%"https"] } c%"a" c%"ping" c%"https://a/ javascript:x" = none := by decide

/-! ### C19 -/

theorem descriptor_shape (E : UrlEnv) (v d : Str) (h : sanitizeDescriptor E v = some d) :
    d = [] ∨ ((∀ x ∈ d, ws x = false ∧ x ≠ ',' ∧ x ≠ '(') ∧ d.getLast? ≠ none ∧ ∀ y, d.getLast? = some y → E.U.isSpace y = false) := by
  have fin : ∀ (t : Str) (k : Char), endsWith [k] t = true → t = t.dropLast ++ [k] := by
    intro t k hk
    unfold endsWith at hk
    rw [List.isSuffixOf_iff_suffix] at hk
    obtain ⟨r, hr⟩ := hk
    rw [← hr]; simp
  have dec : ∀ (n : Str), n.all E.isDecimal = true → ∀ x ∈ n, ws x = false ∧ x ≠ ',' ∧ x ≠ '(' := by
    intro n hn x hx
    have hd := List.all_eq_true.mp hn x hx
    have asc : ∀ y, isAscii y = true → isDigitC y = false → x ≠ y := by
      rintro y h1 h2 rfl
      rw [E.isDecimal_ascii x h1, h2] at hd
      exact absurd hd (by simp)
    refine ⟨?_, asc _ (by decide) (by decide), asc _ (by decide) (by decide)⟩
    simp only [ws, List.mem_cons, List.not_mem_nil, or_false, decide_eq_false_iff_not, not_or]
    exact ⟨asc _ (by decide) (by decide), asc _ (by decide) (by decide), asc _ (by decide) (by decide), asc _ (by decide) (by decide),
      asc _ (by decide) (by decide)⟩
  have build : ∀ (n : Str) (k : Char), (k = 'w' ∨ k = 'h' ∨ k = 'x') → (∀ x ∈ n, ws x = false ∧ x ≠ ',' ∧ x ≠ '(') →
      ((∀ x ∈ n ++ [k], ws x = false ∧ x ≠ ',' ∧ x ≠ '(') ∧ (n ++ [k]).getLast? ≠ none ∧ ∀ y, (n ++ [k]).getLast? = some y → E.U.isSpace y = false) := by
    intro n k hk hn
    refine ⟨?_, by simp, ?_⟩
    · intro x hx
      rcases List.mem_append.mp hx with hx | hx
      · exact hn x hx
      · simp at hx; subst hx
        rcases hk with rfl | rfl | rfl <;> decide
    · intro y hy
      simp at hy; subst hy
      rcases hk with rfl | rfl | rfl <;> exact isSpace_not_urlws E _ (by decide) (by decide)
  unfold sanitizeDescriptor at h
  by_cases hv : v.isEmpty = true
  · rw [if_pos hv] at h; simp at h; exact .inl h
  · rw [if_neg hv] at h
    right
    cases hs : splitWs E.U.isSpace [] v with
    | nil => rw [hs] at h; simp at h
    | cons t0 r =>
      cases r with
      | cons => rw [hs] at h; simp at h
      | nil =>
        rw [hs] at h
        dsimp only at h
        generalize E.U.lower t0 = t at h
        by_cases h1 : (endsWith c%"w" t || endsWith c%"h" t) = true
        · rw [if_pos h1, Option.ite_none_left_eq_some] at h
          have h2 := h.1
          have h3 := h.2
          simp only [Option.some.injEq] at h3
          subst h3
          simp only [Bool.or_eq_true, not_or, Bool.not_eq_true, Bool.not_eq_false'] at h2
          rw [Bool.or_eq_true] at h1
          rcases h1 with h1 | h1
          · rw [fin t _ h1]; exact build _ _ (.inl rfl) (dec _ h2.1.2)
          · rw [fin t _ h1]; exact build _ _ (.inr (.inl rfl)) (dec _ h2.1.2)
        · rw [if_neg h1] at h
          by_cases h4 : endsWith c%"x" t = true
          · rw [if_pos h4, Option.ite_none_left_eq_some, Option.ite_none_left_eq_some] at h
            obtain ⟨h5, -, h6⟩ := h
            simp only [Option.some.injEq] at h6
            subst h6
            rw [fin t _ h4]
            apply build _ _ (.inr (.inr rfl))
            simp only [Bool.not_eq_true, Bool.not_eq_false', densityMatch, Bool.and_eq_true] at h5
            have h5 := h5.2
            have digs : ∀ l : Str, l.all isDigitC = true → ∀ x ∈ l, ws x = false ∧ x ≠ ',' ∧ x ≠ '(' := by
              intro l hl x hx
              have hd := List.all_eq_true.mp hl x hx
              have asc : ∀ y, isDigitC y = false → x ≠ y := by rintro y h2 rfl; rw [h2] at hd; exact absurd hd (by simp)
              refine ⟨?_, asc _ (by decide), asc _ (by decide)⟩
              simp only [ws, List.mem_cons, List.not_mem_nil, or_false, decide_eq_false_iff_not, not_or]
              exact ⟨asc _ (by decide), asc _ (by decide), asc _ (by decide), asc _ (by decide), asc _ (by decide)⟩
            generalize t.dropLast = n at h5
            by_cases hdot : '.' ∈ n
            · obtain ⟨a, r, rfl, hna⟩ := mem_split_first '.' n hdot
              rw [partitionC_found _ _ _ hna] at h5
              simp only [if_true, Bool.and_eq_true] at h5
              intro x hx
              rw [List.mem_append, List.mem_cons] at hx
              rcases hx with hx | rfl | hx
              · exact digs a h5.1.1 x hx
              · decide
              · exact digs r h5.1.2 x hx
            · rw [partitionC_none _ _ hdot] at h5
              simp only [Bool.false_eq_true, if_false, Bool.and_eq_true] at h5
              exact digs n h5.1
          · rw [if_neg h4] at h; simp at h

/-- What may follow the URL of a candidate. -/
def CandShape (u cand : Str) : Prop :=
  u ≠ [] ∧ (∀ x ∈ u, ws x = false) ∧ u.head? ≠ some ',' ∧ u.getLast? ≠ some ',' ∧
    (cand = u ∨ ∃ d, cand = u ++ ' ' :: d ∧ ∀ x ∈ d, x ≠ ',' ∧ x ≠ '(')

theorem trim_id (u : Str) (h : u.getLast? ≠ some ',') : trimCommas u = u := by
  unfold trimCommas
  cases hr : u.reverse with
  | nil => have := congrArg List.reverse hr; simp at this; rw [this]; rfl
  | cons a r =>
    have hu : u = r.reverse ++ [a] := by have := congrArg List.reverse hr; simpa using this
    rw [List.dropWhile_cons, if_neg, ← hr, List.reverse_reverse]
    intro ha
    apply h
    rw [hu]
    simpa using ha

theorem trim_comma (u : Str) (h : u.getLast? ≠ some ',') : trimCommas (u ++ [',']) = u := by
  have := trim_id u h
  unfold trimCommas at this ⊢
  simpa using this

theorem srcset_url (u : Str) : ∀ (acc rest : Str), (∀ x ∈ u, ws x = false) → srcsetScan (.url acc) (u ++ rest) = srcsetScan (.url (acc ++ u)) rest := by
  induction u with
  | nil => intro acc rest _; simp
  | cons c u ih =>
    intro acc rest h
    rw [List.cons_append, srcsetScan, if_neg (by simp [h c (by simp)]), ih _ _ (fun x hx => h x (by simp [hx]))]
    simp

theorem srcset_start (u rest : Str) (h0 : u ≠ []) (h : ∀ x ∈ u, ws x = false) (hh : u.head? ≠ some ',') :
    srcsetScan .start (u ++ rest) = srcsetScan (.url u) rest := by
  obtain ⟨c, r, rfl⟩ := List.exists_cons_of_ne_nil h0
  have hc : ¬ c = ',' := by simpa using hh
  rw [List.cons_append, srcsetScan, if_neg (by simp [h c (by simp), hc]), srcset_url r _ _ (fun x hx => h x (by simp [hx]))]
  rfl

theorem srcset_desc (d : Str) : ∀ rest, (∀ x ∈ d, x ≠ ',' ∧ x ≠ '(') → srcsetScan .desc (d ++ rest) = srcsetScan .desc rest := by
  induction d with
  | nil => intro rest _; rfl
  | cons c d ih =>
    intro rest h
    rw [List.cons_append, srcsetScan, if_neg (h c (by simp)).1, if_neg (h c (by simp)).2, ih _ (fun x hx => h x (by simp [hx]))]

theorem srcset_cand (u cand rest : Str) (h : CandShape u cand) : srcsetScan .start (cand ++ ',' :: ' ' :: rest) = u :: srcsetScan .start rest := by
  obtain ⟨h0, h1, h2, h3, h4⟩ := h
  rcases h4 with rfl | ⟨d, rfl, hd⟩
  · rw [srcset_start cand _ h0 h1 h2, srcsetScan, if_neg (by decide), srcsetScan, if_pos (by decide), if_pos (by simp), trim_comma _ h3]
  · rw [List.append_assoc, srcset_start u _ h0 h1 h2, List.cons_append, srcsetScan, if_pos (by decide), if_neg h3, srcset_desc d _ hd, srcsetScan, if_pos rfl,
      srcsetScan, if_pos (by decide)]

theorem srcset_cand_end (u cand : Str) (h : CandShape u cand) : srcsetScan .start cand = [u] := by
  obtain ⟨h0, h1, h2, h3, h4⟩ := h
  rcases h4 with rfl | ⟨d, rfl, hd⟩
  · have := srcset_start cand [] h0 h1 h2
    rw [List.append_nil] at this
    rw [this, srcsetScan, trim_id _ h3]
  · rw [srcset_start u _ h0 h1 h2, srcsetScan, if_pos (by decide), if_neg h3]
    have := srcset_desc d [] hd
    rw [List.append_nil] at this
    rw [this]; rfl

theorem srcset_join (us cands : List Str) (h : List.Forall₂ CandShape us cands) : srcsetUrls (join c%", " cands) = us := by
  unfold srcsetUrls
  induction h with
  | nil => rfl
  | @cons u c us cs h1 h2 ih =>
    cases h2 with
    | nil => rw [join]; exact srcset_cand_end u c h1
    | @cons v d us cs h3 h4 =>
      have : join c%", " (c :: d :: cs) = c ++ ',' :: ' ' :: join c%", " (d :: cs) := by
        rw [join] <;> simp
      rw [this, srcset_cand u c _ h1, ih]

/-- The pieces of a candidate list that are not blank, without the surrounding white space. -/
def candidatesOf (E : UrlEnv) (v : Str) : List Str := ((splitC ',' v).map (stripP E.U.isSpace)).filter (fun c => !c.isEmpty)

/-- The first token of a candidate. -/
def candUrl (E : UrlEnv) (c : Str) : Str := c.takeWhile (fun x => !E.U.isSpace x)

theorem sanitizeCandidates_spec (E : UrlEnv) (p : UrlPolicy) (rule : UrlRule) (tag attr : Str) (raws outs : List Str)
    (h : sanitizeCandidates E p rule tag attr raws = some outs) :
    List.Forall₂ (fun c o => sanitizeCandidate E p rule tag attr c = some o)
      ((raws.map (stripP E.U.isSpace)).filter (fun c => !c.isEmpty)) outs := by
  induction raws generalizing outs with
  | nil => simp [sanitizeCandidates] at h; subst h; exact .nil
  | cons t ts ih =>
    rw [sanitizeCandidates] at h
    rw [List.map_cons]
    by_cases he : (stripP E.U.isSpace t).isEmpty = true
    · rw [if_pos he] at h
      rw [List.filter_cons_of_neg (by simp [he])]
      exact ih outs h
    · rw [if_neg he] at h
      rw [List.filter_cons_of_pos (by simpa using he)]
      split at h
      · simp at h
      · rename_i s hs
        rw [Option.map_eq_some_iff] at h
        obtain ⟨o, h1, h2⟩ := h
        rw [← h2]
        exact .cons hs (ih o h1)

theorem sanitizeCandidates_none (E : UrlEnv) (p : UrlPolicy) (rule : UrlRule) (tag attr : Str) (raws : List Str) (c : Str)
    (hc : c ∈ (raws.map (stripP E.U.isSpace)).filter (fun c => !c.isEmpty)) (h : sanitizeCandidate E p rule tag attr c = none) :
    sanitizeCandidates E p rule tag attr raws = none := by
  induction raws with
  | nil => simp at hc
  | cons t ts ih =>
    rw [sanitizeCandidates]
    rw [List.map_cons] at hc
    by_cases he : (stripP E.U.isSpace t).isEmpty = true
    · rw [if_pos he]
      rw [List.filter_cons_of_neg (by simp [he])] at hc
      exact ih hc
    · rw [if_neg he]
      rw [List.filter_cons_of_pos (by simpa using he)] at hc
      rcases List.mem_cons.mp hc with rfl | hc
      · rw [h]
      · rw [ih hc]; split <;> simp

theorem splitC_pieces (c : Char) (s p : Str) (h : p ∈ splitC c s) : c ∉ p := by
  suffices ∀ n (s : Str), s.length ≤ n → ∀ p ∈ splitC c s, c ∉ p from this s.length s (Nat.le_refl _) p h
  intro n
  induction n with
  | zero =>
    intro s hs p hp
    have : s = [] := by simpa using hs
    subst this
    rw [splitC_none _ _ (by simp)] at hp
    simp at hp; rw [hp]; simp
  | succ n ih =>
    intro s hs p hp
    by_cases hc : c ∈ s
    · obtain ⟨a, r, rfl, ha⟩ := mem_split_first c s hc
      rw [splitC_append_sep, splitC_none _ _ ha, List.singleton_append] at hp
      rcases List.mem_cons.mp hp with rfl | hp
      · exact ha
      · exact ih r (by simp at hs; omega) p hp
    · rw [splitC_none _ _ hc] at hp
      simp at hp; rw [hp]; exact hc

theorem forall2_change {α β : Type} {R S : α → β → Prop} {l1 : List α} {l2 : List β} (h : List.Forall₂ R l1 l2)
    (f : ∀ a ∈ l1, ∀ b, R a b → S a b) : List.Forall₂ S l1 l2 := by
  induction h with
  | nil => exact .nil
  | cons h1 h2 ih => exact .cons (f _ (by simp) _ h1) (ih fun a ha b => f a (by simp [ha]) b)

theorem forall2_mid {α β γ : Type} {R : α → β → Prop} {S : α → γ → Prop} {T : γ → β → Prop} {l1 : List α} {l2 : List β} (h : List.Forall₂ R l1 l2)
    (f : ∀ a ∈ l1, ∀ b, R a b → ∃ c, S a c ∧ T c b) : ∃ l, List.Forall₂ S l1 l ∧ List.Forall₂ T l l2 := by
  induction h with
  | nil => exact ⟨[], .nil, .nil⟩
  | cons h1 h2 ih =>
    obtain ⟨c, k1, k2⟩ := f _ (by simp) _ h1
    obtain ⟨l, k3, k4⟩ := ih fun a ha b => f a (by simp [ha]) b
    exact ⟨c :: l, .cons k1 k3, .cons k2 k4⟩

/-- C19: the image URLs a browser reads out of a kept `srcset` value are, one by one and in order, what the rule made of the
first token of every non-blank candidate of the input. -/
theorem C19_candidates (E : UrlEnv) (pol : UrlPolicy) (rule : UrlRule) (tag attr value out : Str)
    (hres : ∀ r, rule.resolve = some r → SchemeName r)
    (hp : effHandling pol rule = .proxy → ∀ p, effProxy pol rule = some p → ListProxy E p)
    (hk : sanitizeSrcset E pol rule tag attr value = some out) :
    ∃ v, applyListFilter pol tag attr value = some v ∧
      List.Forall₂ (fun c u => sanitizeUrl E rule tag attr (effHandling pol rule) (effAllowRelative pol rule) (effProxy pol rule) none (candUrl E c) = some u)
        (candidatesOf E (stripP E.U.isSpace v)) (srcsetUrls out) ∧ srcsetUrls out ≠ [] := by
  unfold sanitizeSrcset at hk
  cases hf : applyListFilter pol tag attr value with
  | none => rw [hf] at hk; simp at hk
  | some v =>
    rw [hf] at hk
    dsimp only at hk
    rw [Option.ite_none_left_eq_some] at hk
    replace hk := hk.2
    refine ⟨v, rfl, ?_⟩
    cases ht : sanitizeCandidates E pol rule tag attr (splitC ',' (stripP E.U.isSpace v)) with
    | none => rw [ht] at hk; simp at hk
    | some outs =>
      rw [ht] at hk
      have hfa := sanitizeCandidates_spec E pol rule tag attr _ outs ht
      have hmid := forall2_mid (S := fun c u => sanitizeUrl E rule tag attr (effHandling pol rule) (effAllowRelative pol rule) (effProxy pol rule) none (candUrl E c) = some u)
        (T := CandShape) hfa (by
          intro c hc o ho
          have hcomma : ',' ∉ c := by
            rw [List.mem_filter, List.mem_map] at hc
            obtain ⟨⟨raw, hraw, rfl⟩, -⟩ := hc
            exact fun h => splitC_pieces ',' _ raw hraw (stripP_sub _ _ _ h)
          unfold sanitizeCandidate at ho
          dsimp only at ho
          split at ho
          · simp at ho
          · rename_i u hu
            split at ho
            · simp at ho
            · rename_i d hd
              have hkt := kept_token E rule tag attr _ _ _ _ u hres (fun x hx => by
                have := takeWhile_prop _ _ _ hx
                simpa using this) hp hu
              have hkc := hkt.2.2 (fun h => hcomma ((List.takeWhile_sublist _).subset h))
              refine ⟨u, hu, hkt.1, fun x hx => ?_, hkc.1, hkc.2, ?_⟩
              · cases hwx : ws x with
                | false => rfl
                | true => have h1 := isSpace_ws E x hwx; rw [hkt.2.1 x hx] at h1; exact h1.symm
              · simp only [Option.some.injEq] at ho
                have hhead : ∀ w y, (u ++ w).head? = some y → E.U.isSpace y = false := by
                  intro w y hy
                  obtain ⟨a, r, rfl⟩ := List.exists_cons_of_ne_nil hkt.1
                  simp at hy; subst hy
                  exact hkt.2.1 a (by simp)
                rcases descriptor_shape E _ d hd with rfl | ⟨h1, h2, h3⟩
                · left
                  rw [← ho]
                  unfold stripP
                  have e1 : lstripP E.U.isSpace (u ++ c%" " ++ []) = u ++ c%" " := by
                    unfold lstripP
                    obtain ⟨a, r, rfl⟩ := List.exists_cons_of_ne_nil hkt.1
                    have := hkt.2.1 a (by simp)
                    simp [this]
                  rw [e1]
                  have hsp : E.U.isSpace ' ' = true := isSpace_ws E _ (by decide)
                  have e2 : rstripP E.U.isSpace (u ++ c%" ") = rstripP E.U.isSpace u := by
                    unfold rstripP; simp [hsp]
                  rw [e2]
                  have e3 := stripP_fix E.U.isSpace u (fun y hy => hhead [] y (by simpa using hy)) (fun y hy => hkt.2.1 y (List.mem_of_getLast? hy))
                  unfold stripP at e3
                  have e4 : lstripP E.U.isSpace u = u := by
                    unfold lstripP
                    obtain ⟨a, r, rfl⟩ := List.exists_cons_of_ne_nil hkt.1
                    have := hkt.2.1 a (by simp)
                    simp [this]
                  rw [e4] at e3
                  exact e3
                · right
                  refine ⟨d, ?_, fun x hx => (h1 x hx).2⟩
                  rw [← ho, stripP_fix]
                  · simp
                  · intro y hy; rw [List.append_assoc] at hy; exact hhead _ y hy
                  · intro y hy
                    rw [List.getLast?_append] at hy
                    cases hg : d.getLast? with
                    | none => exact absurd hg h2
                    | some z => rw [hg] at hy; simp at hy; subst hy; exact h3 _ hg)
      obtain ⟨us, k1, k2⟩ := hmid
      have hj := srcset_join us outs k2
      cases outs with
      | nil => simp at hk
      | cons o os =>
        simp only [Option.some.injEq] at hk
        rw [← hk, hj]
        refine ⟨k1, ?_⟩
        cases k2
        simp

/-- C19: one refused candidate refuses the whole value. -/
theorem C19_all_or_nothing (E : UrlEnv) (pol : UrlPolicy) (rule : UrlRule) (tag attr value v c : Str)
    (hv : applyListFilter pol tag attr value = some v) (hc : c ∈ candidatesOf E (stripP E.U.isSpace v))
    (hbad : sanitizeUrl E rule tag attr (effHandling pol rule) (effAllowRelative pol rule) (effProxy pol rule) none (candUrl E c) = none) :
    sanitizeSrcset E pol rule tag attr value = none := by
  unfold sanitizeSrcset
  rw [hv]
  dsimp only
  split
  · rfl
  · rw [sanitizeCandidates_none E pol rule tag attr _ c hc (by unfold sanitizeCandidate; dsimp only; rw [show c.takeWhile (fun x => !E.U.isSpace x) = candUrl E c from rfl, hbad])]

example : sanitizeSrcset UrlEnv.sample {} { schemes := [c%"https"] } c%"img" c%"srcset" c%" https://a/x 2x,, /y  100W,z" =
    some c%"https://a/x 2x, /y 100w, z" := by decide
example : srcsetUrls c%"https://a/x 2x, /y 100w, z" = [c%"https://a/x", c%"/y", c%"z"] := by decide
example : sanitizeSrcset UrlEnv.sample {} { schemes := [c%"https"] } c%"img" c%"srcset" c%"/y 2x, javascript:x" = none := by decide

/-! ### C22 -/

theorem kept_head (E : UrlEnv) (rule : UrlRule) (tag attr : Str) (h : UrlHandling) (rel : Bool) (proxy : Option UrlProxy) (f : Option UrlFilter)
    (t u : Str) (hres : ∀ r, rule.resolve = some r → SchemeName r)
    (hp : h = .proxy → ∀ p, proxy = some p → p.url ≠ [] ∧ ∀ y, p.url.head? = some y → ws y = false)
    (hk : sanitizeUrl E rule tag attr h rel proxy f t = some u) : u ≠ [] ∧ ∀ y, u.head? = some y → ws y = false := by
  obtain ⟨s, hc, hb, hne, -, v, ha, hf⟩ := sanitizeUrl_accept E rule tag attr h rel proxy f t u hk
  have hs : s ≠ [] ∧ ∀ y, s.head? = some y → ws y = false := by
    refine ⟨hne, fun y hy => ?_⟩
    cases hw : ws y with
    | false => rfl
    | true => rw [← hc.head y hy]; exact (isSpace_ws E y hw).symm
  have hv : v ≠ [] ∧ ∀ y, v.head? = some y → ws y = false := by
    cases ha with
    | fragment => exact hs
    | bare => exact hs
    | absolute => exact hs
    | relative => exact hs
    | resolved r0 h1 h2 h3 h4 _ =>
      have hval := (schemeName_iff r0).mp (hres r0 h1)
      have hva := validScheme_char r0 hval
      rw [E.U.lower_ascii _ (List.all_eq_true.mpr fun x hx => (hva x hx).2.2.2.2.2.2)]
      have hvl := lowerA_valid r0 hval
      have hvc := validScheme_char _ hvl
      refine ⟨by simp, ?_⟩
      intro y hy
      cases hl : lowerA r0 with
      | nil => rw [hl] at hy; simp at hy; rw [← hy]; decide
      | cons a l =>
        rw [hl] at hy
        simp at hy
        subst hy
        cases hw : ws a with
        | false => rfl
        | true =>
          have hm : a ∈ lowerA r0 := by rw [hl]; simp
          rw [← isSpace_not_urlws E a (hvc a hm).2.2.2.2.2.2 (hvc a hm).2.2.2.2.2.1]
          exact (isSpace_ws E a hw).symm
  cases h with
  | strip => simp [finishUrl] at hf
  | allow =>
    simp only [finishUrl, Option.some.injEq] at hf
    subst hf
    exact hv
  | proxy =>
    unfold finishUrl at hf
    cases proxy with
    | none => simp at hf
    | some p =>
      simp only [Option.map_some, Option.some.injEq] at hf
      obtain ⟨p1, p2⟩ := hp rfl p rfl
      obtain ⟨c, r, hcr⟩ := List.exists_cons_of_ne_nil p1
      rw [← hf]
      unfold proxyUrl
      rw [hcr] at p2 ⊢
      refine ⟨by simp, fun y hy => p2 y ?_⟩
      simpa using hy

theorem dropWhile_pre (p : Char → Bool) (a : Str) (c : Char) (r : Str) (ha : ∀ x ∈ a, p x = true) (hc : p c = false) :
    (a ++ c :: r).dropWhile p = c :: r := dropWhile_append_stop p a c r ha hc

theorem refresh_read (pre u : Str) (hpre : pre ≠ []) (hd : ∀ x ∈ pre, asciiDigit x = true ∨ x = '.') (hu0 : u ≠ [])
    (hu : ∀ y, u.head? = some y → ws y = false) (hq : u.head? ≠ some '\'' ∧ u.head? ≠ some '"') :
    refreshUrl (pre ++ c%";url=" ++ u) = some u := by
  obtain ⟨a, r, rfl⟩ := List.exists_cons_of_ne_nil hu0
  have hdd : ∀ x ∈ pre, (asciiDigit x || decide (x = '.')) = true := by
    intro x hx
    rcases hd x hx with h | h <;> simp [h]
  have key : ∀ l : Str, (∀ x ∈ l, asciiDigit x = true ∨ x = '.') →
      ((l ++ c%";url=" ++ a :: r).dropWhile asciiDigit).dropWhile (fun c => asciiDigit c || decide (c = '.')) = c%";url=" ++ a :: r := by
    intro l hl
    induction l with
    | nil => rfl
    | cons x l ih =>
      simp only [List.cons_append]
      rw [List.dropWhile_cons]
      by_cases hx : asciiDigit x = true
      · rw [if_pos hx]; exact ih fun y hy => hl y (by simp [hy])
      · rw [if_neg hx]
        have h2 : (l ++ c%";url=" ++ a :: r) = l ++ ';' :: (c%"url=" ++ a :: r) := by simp
        rw [h2, ← List.cons_append, dropWhile_pre]
        · rfl
        · intro y hy
          rcases hl y hy with h | h <;> simp [h]
        · decide
  obtain ⟨d, l, rfl⟩ := List.exists_cons_of_ne_nil hpre
  have hdw : ws d = false := by
    rcases hd d (by simp) with h | h
    · cases hw : ws d with
      | false => rfl
      | true =>
        simp only [ws, List.mem_cons, List.not_mem_nil, or_false, decide_eq_true_eq] at hw
        rcases hw with rfl | rfl | rfl | rfl | rfl <;> exact absurd h (by decide)
    · subst h; decide
  unfold refreshUrl
  dsimp only
  have e1 : (d :: l ++ c%";url=" ++ a :: r).dropWhile ws = d :: l ++ c%";url=" ++ a :: r := by
    simp only [List.cons_append]
    rw [List.dropWhile_cons, if_neg (by simp [hdw])]
  rw [e1, key (d :: l) hd]
  rw [if_neg]
  · have haw := hu a rfl
    have h1 : ¬ a = '\'' := by simpa using hq.1
    have h2 : ¬ a = '"' := by simpa using hq.2
    have e3 : (a :: r).dropWhile ws = a :: r := by rw [List.dropWhile_cons, if_neg (by simp [haw])]
    simp [ws, refreshMarked, refreshTarget]
    rw [e3]; simp [h1, h2]
  · simp only [List.cons_append]
    rcases hd d (by simp) with h | h
    · simp [h]
    · subst h; simp [List.dropWhile_cons, asciiDigit]

/-- C22, part: a kept refresh value whose delay is a plain number, and whose approved URL does not begin with a quote, is read by
a browser as a navigation to exactly the approved URL. Missing: values whose delay part is not a number, and approved URLs
that begin with a quote; for these the claim is false (`C22_prefix_fails`, `C22_nested_quote_fails`). -/
theorem C22_navigation_partial (E : UrlEnv) (pol : UrlPolicy) (rule : UrlRule) (tag attr value out : Str)
    (hres : ∀ r, rule.resolve = some r → SchemeName r)
    (hp : effHandling pol rule = .proxy → ∀ p, effProxy pol rule = some p → p.url ≠ [] ∧ ∀ y, p.url.head? = some y → ws y = false)
    (hk : sanitizeRefresh E pol rule tag attr value = some out) :
    ∃ pre cand u, sanitizeSimple E pol rule tag attr cand = some u ∧ out = pre ++ c%";url=" ++ u ∧
      (pre ≠ [] → (∀ x ∈ pre, asciiDigit x = true ∨ x = '.') → u.head? ≠ some '\'' ∧ u.head? ≠ some '"' → refreshUrl out = some u) := by
  unfold sanitizeRefresh at hk
  split at hk
  · simp at hk
  · rename_i pre cand hx
    split at hk
    · simp at hk
    · rename_i u hu
      simp only [Option.some.injEq] at hk
      refine ⟨stripP E.U.isSpace pre, cand, u, hu, hk.symm, fun h1 h2 h3 => ?_⟩
      have := kept_head E rule tag attr _ _ _ _ cand u hres hp hu
      rw [← hk]
      exact refresh_read _ u h1 h2 this.1 this.2 h3

example : sanitizeRefresh UrlEnv.sample {} { schemes := [c%"https"] } c%"meta" c%"content" c%" 5 ; URL = 'https://ok/x' " =
    some c%"5;url=https://ok/x" := by decide
example : refreshUrl c%"5;url=https://ok/x" = some c%"https://ok/x" := by decide

/-- C22 is false of the code (finding F9): only the URL after the first `;` is checked; a browser that finds `,` first follows
the unchecked one. -/
theorem C22_prefix_fails :
    sanitizeRefresh UrlEnv.sample {} { schemes := [c%"https"], hosts := some [c%"ok"] } c%"meta" c%"content" c%"0,url=https://evil/;url=https://ok/" =
      some c%"0,url=https://evil/;url=https://ok/" ∧
    refreshUrl c%"0,url=https://evil/;url=https://ok/" = some c%"https://evil/;url=https://ok/" ∧
    sanitizeSimple UrlEnv.sample {} { schemes := [c%"https"], hosts := some [c%"ok"] } c%"meta" c%"content" c%"https://evil/;url=https://ok/" = none := by
  refine ⟨?_, ?_, ?_⟩ <;> decide

/-- C22 is false of the code (finding F21): one layer of quotes is removed before the check, and the browser removes the next. -/
theorem C22_nested_quote_fails :
    sanitizeRefresh UrlEnv.sample {} { schemes := [c%"https"], hosts := some [c%"ok"] } c%"meta" c%"content" c%"0;url=\"'https://evil/'\"" =
      some c%"0;url='https://evil/'" ∧
    refreshUrl c%"0;url='https://evil/'" = some c%"https://evil/" ∧
    sanitizeSimple UrlEnv.sample {} { schemes := [c%"https"], hosts := some [c%"ok"] } c%"meta" c%"content" c%"https://evil/" = none := by
  refine ⟨?_, ?_, ?_⟩ <;> decide

end JH
