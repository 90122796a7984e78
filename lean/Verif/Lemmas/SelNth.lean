import Verif.Lemmas.SelWrite
import Verif.Model.SelMatch
/-! `An+B` and quoted arguments. -/
namespace JH
open Spec

variable {U : Uni}

/-- The characters of `An+B`, lower-case. -/
def NthCh (c : Char) : Prop := isDigitC c = true ∨ c = '+' ∨ c = '-' ∨ c = ' '

theorem digit_toNat {c : Char} (h : isDigitC c = true) : 48 ≤ c.toNat ∧ c.toNat ≤ 57 := by
  simp only [isDigitC, Bool.and_eq_true, decide_eq_true_eq] at h
  have h1 : '0'.toNat = 48 := rfl
  have h2 : '9'.toNat = 57 := rfl
  omega

theorem nthCh_ne {c d : Char} (h : NthCh c) (hd : 58 ≤ d.toNat) : c ≠ d := by
  rintro rfl
  rcases h with h | rfl | rfl | rfl
  · have := digit_toNat h; omega
  · exact absurd hd (by decide)
  · exact absurd hd (by decide)
  · exact absurd hd (by decide)

theorem nthCh_ascii {c : Char} (h : NthCh c) : isAscii c = true := by
  rcases h with h | rfl | rfl | rfl
  · have := digit_toNat h; simp only [isAscii, decide_eq_true_eq]; omega
  · decide
  · decide
  · decide

theorem nthCh_lower {c : Char} (h : NthCh c) : lowerC c = c := by
  rcases h with h | rfl | rfl | rfl
  · have := digit_toNat h
    rw [lowerC, if_neg]
    simp only [isUpperC, Bool.and_eq_true, decide_eq_true_eq]
    have h1 : 'A'.toNat = 65 := rfl
    omega
  · decide
  · decide
  · decide

theorem digit_space {c : Char} (h : isDigitC c = true) : U.isSpace c = false := by
  have hn := digit_toNat h
  apply ascii_plain (nthCh_ascii (.inl h))
  have : c ≠ ' ' := by rintro rfl; exact absurd h (by decide)
  simp [this]; omega

theorem sign_ch {g : Str} {z : Int} (h : OptSign g z) : ∀ c ∈ g, (c = '+' ∨ c = '-') := by
  rcases h with ⟨rfl, _⟩ | ⟨rfl, _⟩ | ⟨rfl, _⟩ <;> simp

/-! ### Numbers -/

theorem intDigits_digits : ∀ (ds : Str) (v : Nat) (prev : Bool), (∀ c ∈ ds, isDigitC c = true) → (ds ≠ [] ∨ prev = true) →
    intDigits U v prev ds = some (ds.foldl (fun n c => n * 10 + (c.toNat - '0'.toNat)) v)
  | [], v, prev, _, hp => by
    rcases hp with hp | rfl
    · exact absurd rfl hp
    · rfl
  | c :: cs, v, prev, h, _ => by
    have hc := h c (by simp)
    have h1 : c ≠ '_' := by rintro rfl; exact absurd hc (by decide)
    rw [intDigits, if_neg h1, U.decVal_ascii c hc]
    dsimp only
    rw [intDigits_digits cs _ true (fun d hd => h d (by simp [hd])) (.inr rfl)]
    rfl

theorem pyIntSel_signed {g ds : Str} {z : Int} {v : Nat} (hg : OptSign g z) (hd : Digits ds v) : pyIntSel U (g ++ ds) = some (z * v) := by
  obtain ⟨hne, hlen, hall, hv⟩ := hd
  have hgl : g.length ≤ 1 := by rcases hg with ⟨rfl, _⟩ | ⟨rfl, _⟩ | ⟨rfl, _⟩ <;> simp
  have hstrip : stripP U.isSpace (g ++ ds) = g ++ ds := by
    apply stripP_fix
    · intro y hy
      have hm : y ∈ g ++ ds := List.mem_of_mem_head? hy
      rcases List.mem_append.1 hm with h | h
      · rcases sign_ch hg y h with rfl | rfl <;> exact ascii_plain (by decide) (by decide)
      · exact digit_space (hall y h)
    · intro y hy
      have hm : y ∈ g ++ ds := List.mem_of_getLast? hy
      rcases List.mem_append.1 hm with h | h
      · rcases sign_ch hg y h with rfl | rfl <;> exact ascii_plain (by decide) (by decide)
      · exact digit_space (hall y h)
  have hi : intDigits U 0 false ds = some v := by rw [intDigits_digits ds 0 false hall (.inl hne), hv]
  rw [pyIntSel]
  rw [hstrip, if_neg]
  · rcases hg with ⟨rfl, rfl⟩ | ⟨rfl, rfl⟩ | ⟨rfl, rfl⟩
    · rw [List.nil_append]
      cases ds with
      | nil => exact absurd rfl hne
      | cons c cs =>
        have hc := hall c (by simp)
        split
        · rename_i e; cases e; exact absurd hc (by decide)
        · rename_i e; cases e; exact absurd hc (by decide)
        · rw [hi]; simp
    · show Option.map _ (intDigits U 0 false ds) = _
      rw [hi]; simp
    · show Option.map _ (intDigits U 0 false ds) = _
      rw [hi]; simp
  · have := List.length_filter_le (fun c => (U.decVal c).isSome) (g ++ ds)
    simp only [List.length_append] at this
    omega

theorem coef_ch {t : Str} {a : Int} (h : CoefText t a) : ∀ c ∈ t, isDigitC c = true ∨ c = '+' ∨ c = '-' := by
  cases h with
  | sign hg => intro c hc; exact .inr (sign_ch hg c hc)
  | num hg hd =>
    intro c hc
    rcases List.mem_append.1 hc with h | h
    · exact .inr (sign_ch hg c h)
    · exact .inl (hd.2.2.1 c h)

theorem nthCoeff_text {t : Str} {a : Int} (h : CoefText t a) : nthCoeff U t = some a := by
  cases h with
  | sign hg => rcases hg with ⟨rfl, rfl⟩ | ⟨rfl, rfl⟩ | ⟨rfl, rfl⟩ <;> rfl
  | @num g ds z v hg hd =>
    have hne : ∃ c ∈ g ++ ds, isDigitC c = true := by
      cases ds with
      | nil => exact absurd rfl hd.1
      | cons c cs => exact ⟨c, by simp, hd.2.2.1 c (by simp)⟩
    have hno : g ++ ds ≠ [] ∧ g ++ ds ≠ c%"+" ∧ g ++ ds ≠ c%"-" := by
      obtain ⟨c, hc, h⟩ := hne
      refine ⟨?_, ?_, ?_⟩ <;> intro e <;> rw [e] at hc
      · cases hc
      · rw [List.mem_singleton.1 hc] at h; exact absurd h (by decide)
      · rw [List.mem_singleton.1 hc] at h; exact absurd h (by decide)
    rw [nthCoeff, if_neg (by rintro (h | h); exact hno.1 h; exact hno.2.1 h), if_neg hno.2.2]
    exact pyIntSel_signed hg hd

theorem splitC_no (n : Char) (s : Str) (h : n ∉ s) : splitC n s = [s] := by
  induction s with
  | nil => rfl
  | cons c s ih =>
    rw [splitC, ih fun hm => h (by simp [hm])]
    dsimp only
    rw [if_neg fun e => h (by simp [e])]

theorem splitC_one (n : Char) (s r : Str) (h : n ∉ s) (hr : n ∉ r) : splitC n (s ++ n :: r) = [s, r] := by
  induction s with
  | nil => rw [List.nil_append, splitC, splitC_no n r hr]; simp
  | cons c s ih =>
    rw [List.cons_append, splitC, ih fun hm => h (by simp [hm])]
    dsimp only
    rw [if_neg fun e => h (by simp [e])]

/-! ### The whole expression -/

/-- The rest of `parseNth`, from the normalized text. -/
def nthRest (U : Uni) (e : Str) : Option (Int × Int) :=
  if 'n' ∈ e then
    match nthCoeff U ((splitC 'n' e).headD []) with
    | none => none
    | some a => if (splitC 'n' e).tail.headD [] = [] then some (a, 0) else (pyIntSel U ((splitC 'n' e).tail.headD [])).map fun b => (a, b)
  else (pyIntSel U e).map fun b => (0, b)

theorem parseNth_eq {e s : Str} (hne : s ≠ []) (hs : U.lower (stripP U.isSpace s) = e) (h1 : e ≠ c%"odd") (h2 : e ≠ c%"even") :
    parseNth U (some s) = nthRest U (e.filter (· ≠ ' ')) := by
  cases s with
  | nil => exact absurd rfl hne
  | cons c cs =>
    rw [parseNth.eq_def]
    dsimp only
    rw [hs, if_neg h1, if_neg h2]
    rfl

theorem nthRest_num {e : Str} {b : Int} (h : ∀ c ∈ e, isDigitC c = true ∨ c = '+' ∨ c = '-') (hp : pyIntSel U e = some b) : nthRest U e = some (0, b) := by
  rw [nthRest, if_neg, hp]; rfl
  intro hn
  rcases h _ hn with h | h | h
  · exact absurd h (by decide)
  · exact absurd h (by decide)
  · exact absurd h (by decide)

theorem coef_no_n {t : Str} (h : ∀ c ∈ t, isDigitC c = true ∨ c = '+' ∨ c = '-') : 'n' ∉ t := by
  intro hn
  rcases h _ hn with h | h | h
  · exact absurd h (by decide)
  · exact absurd h (by decide)
  · exact absurd h (by decide)

theorem nthRest_step {t : Str} {a : Int} (h : CoefText t a) : nthRest U (t ++ ['n']) = some (a, 0) := by
  rw [nthRest, if_pos (by simp), splitC_one 'n' t [] (coef_no_n (coef_ch h)) (by simp)]
  dsimp only [List.headD, List.tail]
  rw [nthCoeff_text h]
  rfl

theorem nthRest_full {t r : Str} {a b : Int} (h : CoefText t a) (hr : ∀ c ∈ r, isDigitC c = true ∨ c = '+' ∨ c = '-') (hne : r ≠ [])
    (hp : pyIntSel U r = some b) : nthRest U (t ++ 'n' :: r) = some (a, b) := by
  rw [nthRest, if_pos (by simp), splitC_one 'n' t r (coef_no_n (coef_ch h)) (coef_no_n hr)]
  show (match nthCoeff U t with
    | none => none
    | some a => if r = [] then some (a, 0) else (pyIntSel U r).map fun b => (a, b)) = _
  rw [nthCoeff_text h]
  dsimp only
  rw [if_neg hne, hp]; rfl

theorem filter_keep {s : Str} (h : ∀ c ∈ s, isDigitC c = true ∨ c = '+' ∨ c = '-') : s.filter (· ≠ ' ') = s := by
  rw [List.filter_eq_self]
  intro c hc
  rcases h c hc with h | rfl | rfl
  · have : c ≠ ' ' := by rintro rfl; exact absurd h (by decide)
    simp [this]
  · decide
  · decide

theorem filter_spaces {s : Str} (h : Spaces s) : s.filter (· ≠ ' ') = [] := by
  rw [List.filter_eq_nil_iff]
  intro c hc
  rw [h c hc]; decide

theorem lowerA_keep {s : Str} (h : ∀ c ∈ s, NthCh c) : lowerA s = s := by
  rw [lowerA]
  conv => rhs; rw [← List.map_id s]
  exact List.map_congr_left fun c hc => nthCh_lower (h c hc)

theorem digit_last {ds : Str} {v : Nat} (h : Digits ds v) (t : Str) : ∀ c, (t ++ ds).getLast? = some c → U.isSpace c = false := by
  intro c hc
  rw [List.getLast?_append] at hc
  cases e : ds.getLast? with
  | none => rw [List.getLast?_eq_none_iff] at e; exact absurd e h.1
  | some y =>
    rw [e] at hc
    cases hc
    exact digit_space (h.2.2.1 _ (List.mem_of_getLast? e))

theorem plus_space : U.isSpace '+' = false := ascii_plain (by decide) (by decide)
theorem minus_space : U.isSpace '-' = false := ascii_plain (by decide) (by decide)

theorem num_ch_space {c : Char} (h : isDigitC c = true ∨ c = '+' ∨ c = '-') : U.isSpace c = false := by
  rcases h with h | rfl | rfl
  · exact digit_space h
  · exact plus_space
  · exact minus_space

/-- The text with its letters lowered. -/
structure NthForm (U : Uni) (s e : Str) (a b : Int) : Prop where
  ne : s ≠ []
  ascii : s.all isAscii = true
  lower : lowerA s = e
  head : ∀ c, s.head? = some c → U.isSpace c = false
  last : ∀ c, s.getLast? = some c → U.isSpace c = false
  odd : e ≠ c%"odd" ∧ e ≠ c%"even"
  rest : nthRest U (e.filter (· ≠ ' ')) = some (a, b)

theorem not_odd {e : Str} (h : ∀ c ∈ e, NthCh c ∨ c = 'n') (hd : e ≠ []) : e ≠ c%"odd" ∧ e ≠ c%"even" := by
  constructor
  · rintro rfl
    rcases h 'o' (by simp) with h | h
    · exact nthCh_ne h (by decide) rfl
    · exact absurd h (by decide)
  · rintro rfl
    rcases h 'e' (by simp) with h | h
    · exact nthCh_ne h (by decide) rfl
    · exact absurd h (by decide)

theorem nthCh_of {c : Char} (h : isDigitC c = true ∨ c = '+' ∨ c = '-') : NthCh c := by
  rcases h with h | h | h
  · exact .inl h
  · exact .inr (.inl h)
  · exact .inr (.inr (.inl h))

theorem all_ascii {s : Str} (h : ∀ c ∈ s, NthCh c ∨ c = 'n' ∨ c = 'N') : s.all isAscii = true := by
  rw [List.all_eq_true]
  intro c hc
  rcases h c hc with h | rfl | rfl
  · exact nthCh_ascii h
  · decide
  · decide

theorem head_append {t r : Str} {x : Char} (ht : ∀ c ∈ t, U.isSpace c = false) (hx : U.isSpace x = false) : ∀ c, (t ++ x :: r).head? = some c → U.isSpace c = false := by
  intro c hc
  cases t with
  | nil => rw [← Option.some.inj hc]; exact hx
  | cons d t => rw [← Option.some.inj hc]; exact ht d (by simp)

theorem n_space {n : Char} (h : n = 'n' ∨ n = 'N') : U.isSpace n = false := by
  rcases h with rfl | rfl <;> exact ascii_plain (by decide) (by decide)

theorem lower_n {n : Char} (h : n = 'n' ∨ n = 'N') : lowerC n = 'n' := by
  rcases h with rfl | rfl <;> decide

theorem nthForm {s : Str} {a b : Int} (h : NthText s a b) : lowerA s = c%"odd" ∧ a = 2 ∧ b = 1 ∨ lowerA s = c%"even" ∧ a = 2 ∧ b = 0 ∨ ∃ e, NthForm U s e a b := by
  cases h with
  | odd h => exact .inl ⟨h, rfl, rfl⟩
  | even h => exact .inr (.inl ⟨h, rfl, rfl⟩)
  | @num g ds z v hg hd =>
    refine .inr (.inr ⟨g ++ ds, ?_⟩)
    have hch := coef_ch (CoefText.num hg hd)
    refine ⟨by simp [hd.1], all_ascii fun c hc => .inl (nthCh_of (hch c hc)), lowerA_keep fun c hc => nthCh_of (hch c hc), ?_, digit_last hd g,
      not_odd (fun c hc => .inl (nthCh_of (hch c hc))) (by simp [hd.1]), ?_⟩
    · intro c hc; exact num_ch_space (hch c (List.mem_of_mem_head? hc))
    · rw [filter_keep hch]; exact nthRest_num hch (pyIntSel_signed hg hd)
  | @step t a n ht hn =>
    refine .inr (.inr ⟨t ++ ['n'], ?_⟩)
    have hch := coef_ch ht
    refine ⟨by simp, all_ascii ?_, ?_, head_append (fun c hc => num_ch_space (hch c hc)) (n_space hn), last_snoc (n_space hn), not_odd ?_ (by simp), ?_⟩
    · intro c hc
      rcases List.mem_append.1 hc with h | h
      · exact .inl (nthCh_of (hch c h))
      · rw [List.mem_singleton.1 h]; exact .inr hn
    · rw [lowerA_append, lowerA_keep fun c hc => nthCh_of (hch c hc)]; simp [lowerA, lower_n hn]
    · intro c hc
      rcases List.mem_append.1 hc with h | h
      · exact .inl (nthCh_of (hch c h))
      · exact .inr (List.mem_singleton.1 h)
    · rw [List.filter_append, filter_keep hch, show ['n'].filter (· ≠ ' ') = ['n'] from by decide]
      exact nthRest_step ht
  | @full t x g y ds a z n v ht hn hx hg hy hd =>
    have hch := coef_ch ht
    have hch2 := coef_ch (CoefText.num (.inr hg) hd)
    have hall : ∀ c ∈ x ++ g ++ y ++ ds, NthCh c := by
      intro c hc
      simp only [List.mem_append] at hc
      rcases hc with ((h | h) | h) | h
      · exact .inr (.inr (.inr (hx c h)))
      · exact nthCh_of (hch2 c (by simp [h]))
      · exact .inr (.inr (.inr (hy c h)))
      · exact nthCh_of (hch2 c (by simp [h]))
    refine .inr (.inr ⟨t ++ 'n' :: (x ++ g ++ y ++ ds), ?_⟩)
    refine ⟨by simp, all_ascii ?_, ?_, head_append (fun c hc => num_ch_space (hch c hc)) (n_space hn), ?_, not_odd ?_ (by simp), ?_⟩
    · intro c hc
      rcases List.mem_append.1 hc with h | h
      · exact .inl (nthCh_of (hch c h))
      · rcases List.mem_cons.1 h with rfl | h
        · exact .inr hn
        · exact .inl (hall c h)
    · rw [lowerA_append, lowerA_keep fun c hc => nthCh_of (hch c hc)]
      have := lowerA_keep hall
      rw [lowerA] at this
      rw [lowerA, List.map_cons, lower_n hn, this]
    · have := digit_last (U := U) hd (t ++ n :: (x ++ g ++ y))
      rwa [List.append_assoc, List.cons_append] at this
    · intro c hc
      rcases List.mem_append.1 hc with h | h
      · exact .inl (nthCh_of (hch c h))
      · rcases List.mem_cons.1 h with rfl | h
        · exact .inr rfl
        · exact .inl (hall c h)
    · have e : (t ++ 'n' :: (x ++ g ++ y ++ ds)).filter (· ≠ ' ') = t ++ 'n' :: (g ++ ds) := by
        rw [List.filter_append, filter_keep hch, List.filter_cons_of_pos (by decide), List.filter_append, List.filter_append, List.filter_append,
          filter_spaces hx, filter_spaces hy, filter_keep fun c hc => hch2 c (by simp [hc]), filter_keep (s := ds) fun c hc => hch2 c (by simp [hc])]
        simp
      rw [e]
      exact nthRest_full ht hch2 (by simp [hd.1]) (pyIntSel_signed (.inr hg) hd)

/-! ### Quoted arguments -/

/-- Only backslashes doubled. -/
def doubled (v : Str) : Str := v.flatMap fun c => if c = '\\' then ['\\', '\\'] else [c]

theorem quoteBody_head {q : Char} (hq : q ≠ '\\') : ∀ v : Str, (quoteBody q v).head? ≠ some q
  | [] => by simp [quoteBody]
  | c :: v => by
    rw [quoteBody, List.flatMap_cons]
    split
    · simp; exact fun e => hq e.symm
    · rename_i h; simp only [not_or] at h; simp; exact h.1

theorem replace2_skip {a b x : Char} {r s : Str} (h : ¬ (x = a ∧ s.head? = some b)) : replace2 a b r (x :: s) = x :: replace2 a b r s := by
  cases s with
  | nil => rfl
  | cons y s => rw [replace2, if_neg]; rintro ⟨h1, h2⟩; exact h ⟨h1, by rw [h2]; rfl⟩

theorem replace_quote {q : Char} (hq : q ≠ '\\') : ∀ v : Str, replace2 '\\' q [q] (quoteBody q v) = doubled v
  | [] => rfl
  | c :: v => by
    have ih := replace_quote hq v
    rw [quoteBody, List.flatMap_cons, doubled, List.flatMap_cons]
    by_cases h1 : c = q
    · subst h1
      rw [if_pos (.inl rfl), if_neg hq]
      show replace2 '\\' c [c] ('\\' :: c :: quoteBody c v) = c :: doubled v
      rw [replace2, if_pos ⟨rfl, rfl⟩, ih]; rfl
    · by_cases h2 : c = '\\'
      · subst h2
        rw [if_pos (.inr rfl), if_pos rfl]
        show replace2 '\\' q [q] ('\\' :: '\\' :: quoteBody q v) = '\\' :: '\\' :: doubled v
        rw [replace2_skip (by rintro ⟨_, h⟩; exact hq (Option.some.inj h).symm), replace2_skip (by rintro ⟨_, h⟩; exact quoteBody_head hq v h), ih]
      · rw [if_neg (by rintro (h | h); exact h1 h; exact h2 h), if_neg h2]
        show replace2 '\\' q [q] (c :: quoteBody q v) = c :: doubled v
        rw [replace2_skip (by rintro ⟨h, _⟩; exact h2 h), ih]

theorem replace_doubled : ∀ v : Str, replace2 '\\' '\\' ['\\'] (doubled v) = v
  | [] => rfl
  | c :: v => by
    have ih := replace_doubled v
    rw [doubled, List.flatMap_cons]
    by_cases h2 : c = '\\'
    · subst h2
      rw [if_pos rfl]
      show replace2 '\\' '\\' ['\\'] ('\\' :: '\\' :: doubled v) = '\\' :: v
      rw [replace2, if_pos ⟨rfl, rfl⟩, ih]; rfl
    · rw [if_neg h2]
      show replace2 '\\' '\\' ['\\'] (c :: doubled v) = c :: v
      rw [replace2_skip (by rintro ⟨h, _⟩; exact h2 h), ih]

end JH
