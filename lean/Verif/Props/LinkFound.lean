import Verif.Props.LinkHost

/-! C71: a plain URL between white space is found. -/
namespace JH
open Spec

/-! ### What a match consumes -/

/-- No character class of the expression contains `c`. -/
def Re.Avoids (c : Char) : Re → Prop
  | .chr p => p c = false
  | .seq a b => a.Avoids c ∧ b.Avoids c
  | .alt a b => a.Avoids c ∧ b.Avoids c
  | .star a => a.Avoids c
  | .upTo _ a => a.Avoids c

theorem repEnds_avoids (c : Char) (f : Str → List Str) (hf : ∀ s, ∀ t ∈ f s, ∃ u, s = u ++ t ∧ c ∉ u) :
    ∀ (n : Nat) (s : Str), ∀ t ∈ repEnds f n s, ∃ u, s = u ++ t ∧ c ∉ u := by
  intro n
  induction n with
  | zero => intro s t h; simp only [repEnds, List.mem_singleton] at h; exact ⟨[], by simp [h], by simp⟩
  | succ n ih =>
    intro s t h
    simp only [repEnds, List.mem_append, List.mem_flatMap, List.mem_filter, List.mem_singleton] at h
    rcases h with ⟨x, hx, ht⟩ | rfl
    · obtain ⟨u, rfl, hu⟩ := hf s x hx.1
      obtain ⟨v, rfl, hv⟩ := ih x t ht
      exact ⟨u ++ v, by simp, by simp [hu, hv]⟩
    · exact ⟨[], by simp, by simp⟩

theorem ends_avoids (c : Char) (r : Re) (hr : r.Avoids c) : ∀ s, ∀ t ∈ r.ends s, ∃ u, s = u ++ t ∧ c ∉ u := by
  induction r with
  | chr p =>
    intro s t h
    cases s with
    | nil => simp [Re.ends] at h
    | cons x s =>
      rw [Re.ends] at h
      split at h
      · rename_i hp
        simp only [List.mem_singleton] at h
        refine ⟨[x], by simp [h], ?_⟩
        rw [List.mem_singleton]
        rintro rfl
        rw [Re.Avoids, hp] at hr
        cases hr
      · simp at h
  | seq a b iha ihb =>
    intro s t h
    simp only [Re.ends, List.mem_flatMap] at h
    obtain ⟨x, hx, ht⟩ := h
    obtain ⟨u, rfl, hu⟩ := iha hr.1 s x hx
    obtain ⟨v, rfl, hv⟩ := ihb hr.2 x t ht
    exact ⟨u ++ v, by simp, by simp [hu, hv]⟩
  | alt a b iha ihb =>
    intro s t h
    simp only [Re.ends, List.mem_append] at h
    exact h.elim (iha hr.1 s t) (ihb hr.2 s t)
  | star a ih => intro s t h; rw [Re.ends] at h; exact repEnds_avoids c _ (ih hr) _ s t h
  | upTo n a ih => intro s t h; rw [Re.ends] at h; exact repEnds_avoids c _ (ih hr) _ s t h

theorem space_cases (c : Char) (h : isHtmlSpace c = true) : c = ' ' ∨ c = '\t' ∨ c = '\n' ∨ c = '\x0c' ∨ c = '\r' := by
  simp only [isHtmlSpace, Bool.or_eq_true, decide_eq_true_eq] at h
  rcases h with (((h | h) | h) | h) | h <;> simp [h]

theorem space_facts (E : LinkEnv) (c : Char) (h : isHtmlSpace c = true) :
    E.U.isSpace c = true ∧ E.U.isAlnum c = false ∧ decC E.U c = false := by
  have ha : isAscii c = true := by rcases space_cases c h with rfl | rfl | rfl | rfl | rfl <;> decide
  refine ⟨?_, ?_, ?_⟩
  · rw [E.U.isSpace_ascii c ha]
    rcases space_cases c h with rfl | rfl | rfl | rfl | rfl <;> decide
  · rw [E.U.isAlnum_ascii c ha]
    rcases space_cases c h with rfl | rfl | rfl | rfl | rfl <;> decide
  · rw [decC, ← Bool.not_eq_true]
    intro hd
    have := E.dec_digit c hd
    rw [E.U.isDigit_ascii c ha] at this
    rcases space_cases c h with rfl | rfl | rfl | rfl | rfl <;> exact absurd this (by decide)

/-- No candidate contains white space. -/
theorem candRe_avoids (E : LinkEnv) (c : Char) (h : isHtmlSpace c = true) : (candRe E.U).Avoids c := by
  obtain ⟨h1, h2, h3⟩ := space_facts E c h
  have hlab : labelC E.U c = false := by
    rw [labelC, h2]
    rcases space_cases c h with rfl | rfl | rfl | rfl | rfl <;> decide
  have hurl : urlC E.U c = false := by rw [urlC, h1]; rfl
  have hloc : localC c = false := by rcases space_cases c h with rfl | rfl | rfl | rfl | rfl <;> decide
  have hal : ciAlnum c = false := by rcases space_cases c h with rfl | rfl | rfl | rfl | rfl <;> decide
  have hci : ∀ l ∈ c%"htps:/fmailow.", ciChar l c = false := by
    rcases space_cases c h with rfl | rfl | rfl | rfl | rfl <;> decide
  have hd : ∀ l ∈ c%".@/-", decide (c = l) = false := by
    rcases space_cases c h with rfl | rfl | rfl | rfl | rfl <;> decide
  have k := fun l (hl : l ∈ c%"htps:/fmailow.") => hci l hl
  simp only [candRe, Re.Avoids, Re.plus, Re.opt, Re.lit, Re.times, domainRe, labelRe, d13, pathRe, hlab, hurl, hloc, hal, h3, Bool.false_or,
    hd '.' (by decide), hd '@' (by decide), hd '/' (by decide), hd '-' (by decide),
    k 'h' (by decide), k 't' (by decide), k 'p' (by decide), k 's' (by decide), k ':' (by decide), k '/' (by decide), k 'f' (by decide),
    k 'm' (by decide), k 'a' (by decide), k 'i' (by decide), k 'l' (by decide), k 'o' (by decide), k 'w' (by decide), k '.' (by decide),
    and_self]

/-! ### The candidate for a plain URL -/

theorem head_flatMap {α β : Type} (l : List α) (f : α → List β) (x : α) (y : β) (hx : l.head? = some x) (hy : (f x).head? = some y) :
    (l.flatMap f).head? = some y := by
  cases l with
  | nil => simp at hx
  | cons z l =>
    simp only [List.head?_cons, Option.some.injEq] at hx
    subst hx
    rw [List.flatMap_cons, List.head?_append, hy]
    rfl

theorem lf_head_append {α : Type} (l r : List α) (x : α) (h : l.head? = some x) : (l ++ r).head? = some x := by
  rw [List.head?_append, h]; rfl

/-- Greedy repetition of one character class. -/
theorem star_head (p : Char → Bool) (s : Str) : ((Re.star (.chr p)).ends s).head? = some (s.dropWhile p) := by
  rw [Re.ends]
  have key : ∀ (n : Nat) (s : Str), s.length ≤ n → (repEnds (Re.chr p).ends n s).head? = some (s.dropWhile p) := by
    intro n
    induction n with
    | zero => intro s hs; have := List.length_eq_zero_iff.1 (Nat.le_zero.1 hs); subst this; rfl
    | succ n ih =>
      intro s hs
      cases s with
      | nil => rfl
      | cons c s =>
        rw [repEnds]
        by_cases hp : p c = true
        · have he : (Re.chr p).ends (c :: s) = [s] := by rw [Re.ends, if_pos hp]
          rw [he, List.filter_cons_of_pos (by simp), List.filter_nil, List.flatMap_singleton, List.dropWhile_cons_of_pos hp]
          exact lf_head_append _ _ _ (ih s (by simpa using hs))
        · have he : (Re.chr p).ends (c :: s) = [] := by rw [Re.ends, if_neg hp]
          rw [he, List.dropWhile_cons_of_neg hp]
          rfl
  exact key _ _ (Nat.le_refl _)

theorem plus_head (p : Char → Bool) (c : Char) (s : Str) (hc : p c = true) :
    ((Re.plus (.chr p)).ends (c :: s)).head? = some ((c :: s).dropWhile p) := by
  rw [Re.plus, Re.ends]
  refine head_flatMap _ _ s _ (by rw [Re.ends, if_pos hc]; rfl) ?_
  rw [star_head, List.dropWhile_cons_of_pos hc]

/-- The engine's match at a URL with a scheme is the longest run of URL characters. -/
theorem candRe_url (U : Uni) (s : Str) (hs : s = c%"http" ∨ s = c%"https" ∨ s = c%"ftp") (c : Char) (rest : Str) (hc : urlC U c = true) :
    ((candRe U).ends (s ++ c%"://" ++ c :: rest)).head? = some ((c :: rest).dropWhile (urlC U)) := by
  rw [candRe, Re.ends]
  refine lf_head_append _ _ _ ?_
  rw [Re.ends]
  refine head_flatMap _ _ (c%"://" ++ c :: rest) _ ?_ ?_
  · rcases hs with rfl | rfl | rfl
    · rfl
    · rw [Re.ends]
      refine lf_head_append _ _ _ ?_
      rw [Re.ends]
      refine head_flatMap _ _ ('s' :: c%"://" ++ c :: rest) _ rfl ?_
      rw [Re.opt, Re.ends, repEnds]
      have he : (Re.chr (ciChar 's')).ends ('s' :: c%"://" ++ c :: rest) = [c%"://" ++ c :: rest] := rfl
      rw [he, List.filter_cons_of_pos (by simp)]
      rfl
    · rfl
  · rw [Re.ends]
    refine head_flatMap _ _ (c :: rest) _ rfl ?_
    exact plus_head _ _ _ hc

/-- The candidates found before a white-space character do not skip it. -/
theorem candsGo_reach (E : LinkEnv) (b : Char) (hb : isHtmlSpace b = true) (tail : Str) (r : Str) (hlen : r.length ≤ tail.length)
    (hm : ((candRe E.U).ends tail).head? = some r) : ∀ (n pos : Nat) (pre : Str), (pre ++ b :: tail).length ≤ n →
    (pos + pre.length, tail.take (tail.length - r.length)) ∈ candsGo E.U n pos (pre ++ b :: tail) := by
  have hbound : boundaryC b = true := by rcases space_cases b hb with rfl | rfl | rfl | rfl | rfl <;> decide
  intro n
  induction n using Nat.strongRecOn with
  | _ n ih =>
    intro pos pre hn
    obtain ⟨k, rfl⟩ : ∃ k, n = k + 1 := ⟨n - 1, by simp at hn; omega⟩
    cases pre with
    | nil =>
      rw [List.nil_append, candsGo, if_pos hbound, hm]
      simp
    | cons x pre =>
      rw [List.cons_append, candsGo]
      simp only [List.cons_append, List.length_cons, List.length_append] at hn
      generalize hmm : (if boundaryC x then ((candRe E.U).ends (pre ++ b :: tail)).head? else none) = o
      cases o with
      | none =>
        dsimp only
        have := ih k (by omega) (pos + 1) pre (by simp; omega)
        have he : pos + 1 + pre.length = pos + (x :: pre).length := by simp; omega
        rw [he] at this
        exact this
      | some q =>
        dsimp only
        have hq : q ∈ (candRe E.U).ends (pre ++ b :: tail) := by
          split at hmm
          · exact List.mem_of_head? hmm
          · cases hmm
        obtain ⟨u, hu, hnb⟩ := ends_avoids b _ (candRe_avoids E b hb) _ _ hq
        -- the consumed part ends before `b`
        have : ∃ pre', pre = u ++ pre' ∧ q = pre' ++ b :: tail := by
          rcases List.append_eq_append_iff.1 hu with ⟨x', h1, h2⟩ | ⟨x', h1, h2⟩
          · cases x' with
            | nil => exact ⟨[], by simpa using h1.symm, by simpa using h2.symm⟩
            | cons y x' =>
              exfalso
              simp only [List.cons_append, List.cons.injEq] at h2
              exact hnb (by rw [h1, ← h2.1]; simp)
          · exact ⟨x', h1, h2⟩
        obtain ⟨pre', rfl, rfl⟩ := this
        have hl : (u ++ pre' ++ b :: tail).length - (pre' ++ b :: tail).length = u.length := by simp
        rw [hl]
        have := ih k (by omega) (pos + 1 + u.length) pre' (by simp at hn ⊢; omega)
        have he : pos + 1 + u.length + pre'.length = pos + (x :: (u ++ pre')).length := by simp; omega
        rw [he] at this
        exact List.mem_cons_of_mem _ this

/-! ### No link is lost -/

theorem trimCand_bound (U : Uni) (text : Str) (start : Nat) (stripped : Str) (s : Nat) (c : Str)
    (hc : trimCand U text start stripped = some (s, c)) : start ≤ s ∧ s + c.length ≤ start + stripped.length := by
  rw [trimCand] at hc
  have h1 := (trimTrailing_prefix stripped).length_le
  generalize trimTrailing stripped = c1 at hc h1
  dsimp only at hc
  split at hc
  · cases hc
  have h2 : (if hasScheme3 (U.lower c1) then
        match find? c%")[" c1 with
        | some k => trimTrailing (c1.take k)
        | none => c1
      else c1).length ≤ c1.length := by
    split
    · split
      · exact Nat.le_trans (trimTrailing_prefix _).length_le (by rw [List.length_take]; exact Nat.min_le_right _ _)
      · exact Nat.le_refl _
    · exact Nat.le_refl _
  generalize (if hasScheme3 (U.lower c1) then
        match find? c%")[" c1 with
        | some k => trimTrailing (c1.take k)
        | none => c1
      else c1) = c2 at hc h2
  split at hc
  · cases hc
  rename_i hne
  split at hc
  · split at hc
    · cases hc
    · simp only [Option.some.injEq, Prod.mk.injEq] at hc
      obtain ⟨rfl, rfl⟩ := hc
      have : 0 < c2.length := by cases c2 <;> simp at hne ⊢
      rw [List.length_drop]
      omega
  · simp only [Option.some.injEq, Prod.mk.injEq] at hc
    obtain ⟨rfl, rfl⟩ := hc
    omega

theorem linkOf_bound (E : LinkEnv) (cfg : LinkCfg) (text : Str) (c : Nat × Str) (hc : c.2 <+: text.drop c.1) (m : LinkMatch)
    (h : linkOf E cfg text c = .ok (some m)) : c.1 ≤ m.start ∧ m.stop ≤ c.1 + c.2.length ∧ m.start < m.stop := by
  obtain ⟨_, h2, h3, _, _, _, h7⟩ := linkOf_some E cfg text c hc m h
  have hb := trimCand_bound _ _ _ _ _ _ h7
  have hpos := List.length_pos_iff.2 h2
  have hsw : (stripWrapping c.2).2 + (stripWrapping c.2).1.length ≤ c.2.length := by
    rw [stripWrapping]
    split
    · rename_i hw
      cases hx : c.2 with
      | nil => rw [hx] at hw; simp at hw
      | cons y ys =>
        simp only [List.drop_succ_cons, List.drop_zero, List.tail_cons, List.length_dropLast, List.length_cons]
        omega
    · simp
  omega

theorem linksOf_ordered (E : LinkEnv) (cfg : LinkCfg) (text : Str) : ∀ (cs : List (Nat × Str)),
    (∀ c ∈ cs, c.2 <+: text.drop c.1) → cs.Pairwise (fun a b => a.1 + a.2.length < b.1) → ∀ ms, linksOf E cfg text cs = .ok ms →
    ms.Pairwise (fun a b => a.stop ≤ b.start ∧ a.start < b.start) ∧ (∀ c ∈ cs, ∀ m, linkOf E cfg text c = .ok (some m) → m ∈ ms) := by
  intro cs
  induction cs with
  | nil => intro _ _ ms h; simp only [linksOf, Except.ok.injEq] at h; subst h; simp
  | cons c cs ih =>
    intro hcs hpw ms h
    obtain ⟨hp1, hp2⟩ := List.pairwise_cons.1 hpw
    rw [linksOf] at h
    cases ho : linkOf E cfg text c with
    | error e => rw [ho] at h; cases h
    | ok o =>
      rw [ho] at h
      dsimp only at h
      cases hr : linksOf E cfg text cs with
      | error e => rw [hr] at h; cases h
      | ok r =>
        rw [hr] at h
        simp only [Except.ok.injEq] at h
        subst h
        obtain ⟨i1, i2⟩ := ih (fun c hc => hcs c (by simp [hc])) hp2 r hr
        refine ⟨?_, ?_⟩
        · cases o with
          | none => simpa using i1
          | some x =>
            rw [Option.toList_some, List.singleton_append]
            refine List.pairwise_cons.2 ⟨fun m hm => ?_, i1⟩
            obtain ⟨d, hd, he⟩ := linksOf_mem E cfg text cs r hr m hm
            have hb1 := linkOf_bound E cfg text c (hcs c (by simp)) x ho
            have hb2 := linkOf_bound E cfg text d (hcs d (by simp [hd])) m he
            have := hp1 d hd
            omega
        · intro d hd m hm
          rcases List.mem_cons.1 hd with rfl | hd
          · rw [ho] at hm
            simp only [Except.ok.injEq] at hm
            subst hm
            simp
          · exact List.mem_append_right _ (i2 d hd m hm)

theorem sortLinks_id : ∀ ms : List LinkMatch, ms.Pairwise (fun a b => a.stop ≤ b.start ∧ a.start < b.start) → sortLinks ms = ms := by
  intro ms
  induction ms with
  | nil => intro _; rfl
  | cons m ms ih =>
    intro h
    obtain ⟨h1, h2⟩ := List.pairwise_cons.1 h
    rw [sortLinks, ih h2]
    cases ms with
    | nil => rfl
    | cons x xs =>
      rw [insertLink]
      have : linkLe m x = true := by
        have := (h1 x (by simp)).2
        simp [linkLe, this]
      rw [if_pos this]

theorem dropOverlaps_id : ∀ (ms : List LinkMatch) (k : Nat), (∀ m ∈ ms, k ≤ m.start) →
    ms.Pairwise (fun a b => a.stop ≤ b.start ∧ a.start < b.start) → dropOverlaps k ms = ms := by
  intro ms
  induction ms with
  | nil => intro k _ _; rfl
  | cons m ms ih =>
    intro k hk h
    obtain ⟨h1, h2⟩ := List.pairwise_cons.1 h
    have := hk m (by simp)
    rw [dropOverlaps, if_neg (by omega), ih m.stop (fun x hx => (h1 x hx).1) h2]

/-- Every candidate that passes the checks is returned. -/
theorem findLinks_complete (E : LinkEnv) (cfg : LinkCfg) (text : Str) (ms : List LinkMatch) (h : findLinks E cfg text = .ok ms)
    (c : Nat × Str) (hc : c ∈ cands E.U text) (m : LinkMatch) (hm : linkOf E cfg text c = .ok (some m)) : m ∈ ms := by
  rw [findLinks] at h
  cases hl : linksOf E cfg text (cands E.U text) with
  | error e => rw [hl] at h; cases h
  | ok out =>
    rw [hl] at h
    simp only [Except.ok.injEq] at h
    obtain ⟨h1, h2⟩ := linksOf_ordered E cfg text _ (fun c hc => ((cands_slices E.U text).1 c hc).1) (cands_slices E.U text).2 out hl
    rw [sortLinks_id out h1, dropOverlaps_id out 0 (fun _ _ => Nat.zero_le _) h1] at h
    rw [← h]
    exact h2 c hc m hm

/-! ### A plain URL passes the checks -/

theorem trimTrailing_plain (c tail : Str) (x : Char) (h : c.getLast? = some x) (ht : ∀ y ∈ tail, y ∈ c%".,;:!?") (h1 : x ∉ c%".,;:!?")
    (h2 : x = '"' ∨ x = '\'' → c.count x % 2 = 0) (h3 : x ≠ '>')
    (h4 : ∀ p ∈ [('(', ')'), ('[', ']'), ('{', '}')], x = p.2 → c.count p.2 ≤ c.count p.1) : trimTrailing (c ++ tail) = c := by
  obtain ⟨ys, rfl⟩ := List.getLast?_eq_some_iff.1 h
  have hp : dropPunct (tail.reverse ++ (x :: ys.reverse)) = x :: ys.reverse := by
    rw [dropPunct, List.dropWhile_append_of_pos (by intro y hy; rw [List.contains_iff_mem]; exact ht y (by simpa using hy)),
      List.dropWhile_cons_of_neg]
    rw [List.contains_iff_mem]
    exact h1
  have hrev : (ys ++ [x] ++ tail).reverse = tail.reverse ++ (x :: ys.reverse) := by simp
  have hcount : ∀ q, countC q (x :: ys.reverse) = (ys ++ [x]).count q := by
    intro q
    have : (x :: ys.reverse) = (ys ++ [x]).reverse := by simp
    rw [countC, this, List.count_reverse]
  rw [trimTrailing, hrev]
  rw [hp]
  have hq : dropQuotes (x :: ys.reverse) 0 0 (x :: ys.reverse) = x :: ys.reverse := by
    rw [dropQuotes.eq_def]
    split
    · rename_i heq
      cases heq
      have := h2 (.inl rfl)
      rw [hcount, if_neg (by omega)]
    · rename_i heq
      cases heq
      have := h2 (.inr rfl)
      rw [hcount, if_neg (by omega)]
    · rfl
  rw [hq, dropClosers]
  have hfin : (x :: ys.reverse).reverse = ys ++ [x] := by simp
  cases ho : openOf x with
  | none => exact hfin
  | some o =>
    have hle : (ys ++ [x]).count x ≤ (ys ++ [x]).count o := by
      rw [openOf.eq_def] at ho
      split at ho
      · cases ho; exact h4 ('(', ')') (by decide) rfl
      · cases ho; exact h4 ('[', ']') (by decide) rfl
      · cases ho; exact h4 ('{', '}') (by decide) rfl
      · exact absurd rfl h3
      · cases ho
    dsimp only
    rw [hcount, hcount, if_neg (by omega)]
    exact hfin

theorem alnum_not (x : Char) (hx : isAsciiAlpha x = true ∨ isDigitC x = true ∨ x = '.' ∨ x = '-') :
    x ∉ c%"/?#@:_[<>)" ∧ x ≠ '\uff5c' ∧ isAscii x = true := by
  have ha : isAscii x = true := by
    have h1 : 'z'.toNat = 122 := rfl
    have h2 : 'Z'.toNat = 90 := rfl
    have h3 : '9'.toNat = 57 := rfl
    simp only [isAscii, decide_eq_true_eq]
    simp only [isAsciiAlpha, isLowerC, isUpperC, isDigitC, Bool.or_eq_true, Bool.and_eq_true, decide_eq_true_eq] at hx
    rcases hx with (hx | hx) | hx | rfl | rfl
    · omega
    · omega
    · omega
    · decide
    · decide
  refine ⟨?_, ?_, ha⟩
  · intro hm
    simp only [List.mem_cons, List.not_mem_nil, or_false] at hm
    rcases hm with rfl | rfl | rfl | rfl | rfl | rfl | rfl | rfl | rfl | rfl <;> exact absurd hx (by decide)
  · rintro rfl; exact absurd hx (by decide)

theorem url_linkOf (E : LinkEnv) (cfg : LinkCfg) (text : Str) (start : Nat) (url tail : Str) (p : PlainUrl E.U url)
    (htail : ∀ y ∈ tail, y ∈ c%".,;:!?") :
    linkOf E cfg text (start, url ++ tail) = .ok (some ⟨start, start + url.length, url, url, false⟩) := by
  obtain ⟨sch, host, path, he, hsch, hchars, hletter, hfirst, hlast, hdots, pfirst, plast, pchars, pbreak⟩ := p
  have hhne : host ≠ [] := by obtain ⟨c, hc, _⟩ := hletter; rintro rfl; simp at hc
  have hcolon : ':' ∉ sch := by rcases hsch with rfl | rfl | rfl <;> decide
  -- first and last character
  obtain ⟨f, fs, hurl, hf⟩ : ∃ f fs, url = f :: fs ∧ (f = 'h' ∨ f = 'f') := by
    rcases hsch with rfl | rfl | rfl
    · exact ⟨'h', _, he, .inl rfl⟩
    · exact ⟨'h', _, he, .inl rfl⟩
    · exact ⟨'f', _, he, .inr rfl⟩
  have hend : ∃ x, url.getLast? = some x ∧ x ∉ c%".,;:!?" ∧ (x = '"' ∨ x = '\'' → url.count x % 2 = 0) ∧ x ≠ '>' ∧
      ∀ p ∈ [('(', ')'), ('[', ']'), ('{', '}')], x = p.2 → url.count p.2 ≤ url.count p.1 := by
    rw [he, List.getLast?_append, ← he]
    cases hp : path.getLast? with
    | some x =>
      obtain ⟨p1, p2, p3⟩ := plast x hp
      exact ⟨x, rfl, p1, p2, (pchars x (List.mem_of_getLast? hp)).2.2.1, p3⟩
    | none =>
      rw [List.getLast?_append]
      cases hh : host.getLast? with
      | none => exact absurd (List.getLast?_eq_none_iff.1 hh) hhne
      | some x =>
        have hx := hlast x hh
        have hne : ∀ y ∈ c%".,;:!?\"')]}>", x ≠ y := by
          rintro y hy rfl
          simp only [List.mem_cons, List.not_mem_nil, or_false] at hy
          rcases hy with rfl | rfl | rfl | rfl | rfl | rfl | rfl | rfl | rfl | rfl | rfl | rfl <;> exact absurd hx (by decide)
        refine ⟨x, rfl, fun hm => ?_, fun hq => ?_, hne '>' (by decide), fun p hp hx => ?_⟩
        · simp only [List.mem_cons, List.not_mem_nil, or_false] at hm
          rcases hm with rfl | rfl | rfl | rfl | rfl | rfl <;> exact absurd rfl (hne _ (by decide))
        · rcases hq with rfl | rfl <;> exact absurd rfl (hne _ (by decide))
        · simp only [List.mem_cons, List.not_mem_nil, or_false] at hp
          rcases hp with rfl | rfl | rfl <;> exact absurd hx (hne _ (by decide))
  obtain ⟨lx, hlx, hl1, hl2, hl3, hl4⟩ := hend
  have hsw : stripWrapping (url ++ tail) = (url ++ tail, 0) := by
    rw [stripWrapping, hurl]
    rcases hf with rfl | rfl <;> rfl
  have hB : Begins (sch ++ c%"://") url := by
    refine ⟨sch ++ c%"://", host ++ path, by rw [he]; simp, ?_⟩
    rcases hsch with rfl | rfl | rfl <;> decide
  have h3 : hasScheme3 (E.U.lower url) = true := by
    rw [low_scheme3]
    rcases hsch with rfl | rfl | rfl
    · exact .inl hB
    · exact .inr (.inl hB)
    · exact .inr (.inr hB)
  have hnot : ∀ p : Str, (∀ x, p.head? = some x → x ≠ 'h' ∧ x ≠ 'f') → p ≠ [] → ¬ Begins p url := by
    rintro p hp hne ⟨a, b, hab, hl⟩
    cases a with
    | nil => exact hne (by rw [← hl]; rfl)
    | cons y a =>
      rw [hurl, List.cons_append, List.cons.injEq] at hab
      have := hp (lowerC y) (by rw [← hl]; rfl)
      rw [← hab.1] at this
      rcases hf with rfl | rfl
      · exact this.1 (by decide)
      · exact this.2 (by decide)
  have n2 : startsWith c%"//" (E.U.lower url) = false := by
    rw [← Bool.not_eq_true, low_slashes]
    exact hnot _ (by simp) (by simp)
  have nm : startsWith c%"mailto:" (E.U.lower url) = false := by
    rw [← Bool.not_eq_true, low_mailto]
    exact hnot _ (by simp) (by simp)
  -- the text
  have hnoclose : find? c%")[" url = none := by
    cases hfd : find? c%")[" url with
    | none => rfl
    | some k =>
      exfalso
      have hin : isIn c%")[" url = true := by rw [isIn, hfd]; rfl
      obtain ⟨a, b, hab⟩ := isIn_iff.1 hin
      have hP : ∀ x ∈ sch ++ c%"://" ++ host, x ≠ ')' := by
        rintro x hm rfl
        simp only [List.mem_append] at hm
        rcases hm with (hm | hm) | hm
        · rcases hsch with rfl | rfl | rfl <;> exact absurd hm (by decide)
        · exact absurd hm (by decide)
        · exact (alnum_not _ (hchars _ hm)).1 (by decide)
      rw [he] at hab
      generalize sch ++ c%"://" ++ host = P at hP hab
      rcases List.append_eq_append_iff.1 (show P ++ path = a ++ (c%")[" ++ b) by rw [hab]; simp) with ⟨w, h1, h2⟩ | ⟨w, h1, h2⟩
      · exact pbreak ⟨w, b, by rw [h2]; simp⟩
      · cases w with
        | nil => exact pbreak ⟨[], b, by simpa using h2⟩
        | cons y w =>
          simp only [List.cons_append, List.cons.injEq] at h2
          exact hP y (by rw [h1]; simp) h2.1.symm
  have hcand : trimCand E.U text start (url ++ tail) = some (start, url) := by
    rw [trimCand, trimTrailing_plain url tail lx hlx htail hl1 hl2 hl3 hl4]
    have hne : url.isEmpty = false := by rw [hurl]; rfl
    have hq : (url.head?.any fun c => c = '"' || c = '\'') = false := by
      rw [hurl]
      rcases hf with rfl | rfl <;> rfl
    rw [if_neg (by simp [hne]), h3, if_pos rfl, hnoclose]
    dsimp only
    rw [if_neg (by simp [hne]), hq]
    simp
  -- the host
  have hsplit : splitHost (host ++ path) = (host, path) := by
    have hstop : ∀ c ∈ host, (!(decide (c = '/') || decide (c = '?') || decide (c = '#'))) = true := by
      intro c hc
      have := (alnum_not c (hchars c hc)).1
      simp only [List.mem_cons, List.not_mem_nil, or_false, not_or] at this
      simp [this.1, this.2.1, this.2.2.1]
    rw [splitHost]
    cases hpath : path with
    | nil =>
      rw [List.append_nil, takeWhile_all _ host hstop]
      have : host.dropWhile (fun c => !(decide (c = '/') || decide (c = '?') || decide (c = '#'))) = [] := by
        have h1 := List.takeWhile_append_dropWhile (p := fun c => !(decide (c = '/') || decide (c = '?') || decide (c = '#'))) (l := host)
        rw [takeWhile_all _ host hstop] at h1
        simpa using h1
      rw [this]
    | cons y ys =>
      have hy : y = '/' := pfirst y (by rw [hpath]; rfl)
      subst hy
      have h0 := takeWhile_append_stopU (fun c => !(decide (c = '/') || decide (c = '?') || decide (c = '#'))) host '/' ys hstop (by decide)
      have h1 := List.takeWhile_append_dropWhile (p := fun c => !(decide (c = '/') || decide (c = '?') || decide (c = '#')))
        (l := host ++ '/' :: ys)
      rw [h0] at h1
      have h2 := List.append_cancel_left h1
      rw [h0, h2]
  have hmem : ∀ c ∈ c%"/?#@:_[<>)", c ∉ host := fun c hc hm => (alnum_not c (hchars c hm)).1 hc
  have hurlok : refusedUrl E.U (E.U.lower url) url = .ok false := by
    have hafter : afterScheme url = host ++ path := by
      have : url = sch ++ c%"://" ++ (host ++ path) := by rw [he]; simp
      rw [this, afterScheme_eq sch _ hcolon]
    rw [refusedUrl, if_pos h3, hafter, hsplit]
    have e5 : startsWith c%"-" host = false ∧ startsWith c%"." host = false := by
      cases hh : host with
      | nil => exact absurd hh hhne
      | cons y ys =>
        have := hfirst y (by rw [hh]; rfl)
        constructor
        · have : y ≠ '-' := by rintro rfl; exact absurd this (by decide)
          simp [startsWith, List.isPrefixOf, Ne.symm this]
        · have : y ≠ '.' := by rintro rfl; exact absurd this (by decide)
          simp [startsWith, List.isPrefixOf, Ne.symm this]
    have e6 : endsWith c%"-" host = false ∧ endsWith c%"." host = false := by
      have hl : ∀ y, host.getLast? = some y → y ≠ '-' ∧ y ≠ '.' := by
        intro y hy
        have := hlast y hy
        exact ⟨by rintro rfl; exact absurd this (by decide), by rintro rfl; exact absurd this (by decide)⟩
      constructor
      · rw [endsWith, ← Bool.not_eq_true, List.isSuffixOf_iff_suffix]
        rintro ⟨ys, hy⟩
        exact (hl '-' (by rw [← hy]; simp)).1 rfl
      · rw [endsWith, ← Bool.not_eq_true, List.isSuffixOf_iff_suffix]
        rintro ⟨ys, hy⟩
        exact (hl '.' (by rw [← hy]; simp)).2 rfl
    have e7 : isIn c%".." host = false := isIn_false_iff.2 fun a b hab => hdots ⟨a, b, hab.symm⟩
    have e8 : dottedDigits E.U host = false := by
      obtain ⟨c, hc, hca⟩ := hletter
      have hcn := alnum_not c (.inl hca)
      have hd : E.U.isDigit c = false := by
        rw [E.U.isDigit_ascii c hcn.2.2, ← Bool.not_eq_true]
        intro hdc
        have h1 : 'a'.toNat = 97 := rfl
        have h2 : 'A'.toNat = 65 := rfl
        have h3 : '9'.toNat = 57 := rfl
        simp only [isAsciiAlpha, isLowerC, isUpperC, isDigitC, Bool.or_eq_true, Bool.and_eq_true, decide_eq_true_eq] at hca hdc
        omega
      have hne : c ≠ '.' := by rintro rfl; exact absurd hca (by decide)
      rw [dottedDigits, ← Bool.not_eq_true]
      simp only [Bool.and_eq_true, List.all_eq_true, List.mem_filter, not_and]
      intro _ hall
      have := hall c ⟨hc, by simpa using hne⟩
      rw [hd] at this
      cases this
    have f2 : ¬ '@' ∈ host := hmem '@' (by decide)
    have f3 : ¬ ':' ∈ host := hmem ':' (by decide)
    have f4 : ¬ '_' ∈ host := hmem '_' (by decide)
    dsimp only
    simp [hhne, f2, f3, f4, e5.1, e5.2, e6.1, e6.2, e7, e8]
  have href : hrefFor E.U url = (url, false) := by
    rw [hrefFor, nm, h3]
    simp
  have hpre : hrefPrefix (E.U.lower url) = some (sch ++ c%"://").length := by
    rw [hrefPrefix, nm]
    have q1 := low_http E url
    have q2 := low_https E url
    have q3 := low_ftp E url
    rcases hsch with rfl | rfl | rfl
    · rw [if_neg (by simp), if_pos (q1.2 hB)]; rfl
    · have : startsWith c%"http://" (E.U.lower url) = false := by
        rw [← Bool.not_eq_true, q1]
        rintro ⟨a, b, hab, hl⟩
        rw [he] at hab
        match a, hl with
        | [a0, a1, a2, a3, a4, a5, a6], hl =>
          simp only [lowerA, List.map_cons, List.map_nil, List.cons.injEq, and_true] at hl
          simp only [List.cons_append, List.cons.injEq] at hab
          rw [← hab.2.2.2.2.1] at hl
          exact absurd hl.2.2.2.2.1 (by decide)
        | [], hl => simp [lowerA] at hl
        | [_], hl => simp [lowerA] at hl
        | [_, _], hl => simp [lowerA] at hl
        | [_, _, _], hl => simp [lowerA] at hl
        | [_, _, _, _], hl => simp [lowerA] at hl
        | [_, _, _, _, _], hl => simp [lowerA] at hl
        | [_, _, _, _, _, _], hl => simp [lowerA] at hl
        | _ :: _ :: _ :: _ :: _ :: _ :: _ :: _ :: _, hl => simp [lowerA] at hl
      rw [if_neg (by simp), if_neg (by simp [this]), if_pos (q2.2 hB)]; rfl
    · have hft : ∀ p : Str, p.head? = some 'h' → ¬ Begins p url := by
        rintro p hp ⟨a, b, hab, hl⟩
        cases a with
        | nil => rw [← hl] at hp; simp [lowerA] at hp
        | cons y a =>
          rw [he, List.cons_append] at hab
          simp only [List.cons_append, List.cons.injEq] at hab
          rw [← hl, ← hab.1] at hp
          simp only [lowerA, List.map_cons, List.head?_cons, Option.some.injEq] at hp
          exact absurd hp (by decide)
      rw [if_neg (by simp), if_neg (by rw [q1]; exact hft _ rfl), if_neg (by rw [q2]; exact hft _ rfl), if_pos (q3.2 hB)]; rfl
  have hpuny : punycodeHref E url = url := by
    rw [punycodeHref, hpre]
    have hd : url.drop (sch ++ c%"://").length = host ++ path := by
      have : url = (sch ++ c%"://") ++ (host ++ path) := by rw [he]; simp
      rw [this, List.drop_left']; rfl
    have ht : url.take (sch ++ c%"://").length = sch ++ c%"://" := by
      have : url = (sch ++ c%"://") ++ (host ++ path) := by rw [he]; simp
      rw [this, List.take_left']; rfl
    dsimp only
    rw [hd, hsplit, ht]
    have hph : punycodeHostport E host = some host := by
      rw [punycodeHostport]
      have e2 : host.contains '@' = false := by simpa using hmem '@' (by decide)
      rw [e2]
      have e3 : startsWith c%"[" host = false := by
        cases hh : host with
        | nil => exact absurd hh hhne
        | cons y ys =>
          have : y ≠ '[' := by rintro rfl; exact hmem '[' (by decide) (by rw [hh]; simp)
          simp [startsWith, List.isPrefixOf, Ne.symm this]
      simp only [Bool.false_eq_true, if_false]
      rw [e3, partitionC_none ':' host (hmem ':' (by decide))]
      have hidna := E.idna_ascii host (List.all_eq_true.2 fun c hc => (alnum_not c (hchars c hc)).2.2)
      simp [hidna]
    dsimp only
    rw [hph]
    dsimp only
    rw [he]
  have hre : refused E.U cfg text start url = .ok false := by
    have b1 : afterBroken text start (E.U.lower url) url = false := by rw [afterBroken, h3]; simp
    have b2 : refusedIp E.U cfg (E.U.lower url) url = .ok false := by rw [refusedIp, h3]; simp
    have b3 : refusedProtoRel E.U text start (E.U.lower url) url = false := by rw [refusedProtoRel, n2]; simp
    have b4 : refusedDomain E.U cfg (E.U.lower url) url = .ok false := by rw [refusedDomain, h3]; simp
    have b5 : refusedEmail E.U cfg (E.U.lower url) url = false := by rw [refusedEmail, h3]; simp
    rw [refused]
    simp only [b1, b2, b3, b4, b5, hurlok, Bool.false_eq_true, if_false]
  rw [linkOf, hsw]
  simp only [Nat.add_zero, hcand, hre, href, hpuny]

/-- C71: a plain URL between white space (or at an end of the text) is returned, with its offsets and itself as address, whatever
surrounds it; punctuation right after it is not part of the link. -/
theorem C71_plain_url_found (E : LinkEnv) (cfg : LinkCfg) (pre url tail post : Str) (p : PlainUrl E.U url)
    (htail : ∀ c ∈ tail, c ∈ c%".,;:!?")
    (hpre : ∀ c, pre.getLast? = some c → isHtmlSpace c = true) (hpost : ∀ c, post.head? = some c → isHtmlSpace c = true)
    (ms : List LinkMatch) (h : findLinks E cfg (pre ++ url ++ tail ++ post) = .ok ms) :
    (⟨pre.length, pre.length + url.length, url, url, false⟩ : LinkMatch) ∈ ms := by
  refine findLinks_complete E cfg _ ms h (pre.length, url ++ tail) ?_ _ (url_linkOf E cfg _ _ url tail p htail)
  clear h
  obtain ⟨sch, host, path, he, hsch, hchars, hletter, hfirst, hlast, hdots, pfirst, plast, pchars, pbreak⟩ := p
  have hht : ∀ c ∈ tail, urlC E.U c = true := by
    intro c hc
    have := htail c hc
    have hs : E.U.isSpace c = false := by
      simp only [List.mem_cons, List.not_mem_nil, or_false] at this
      rcases this with rfl | rfl | rfl | rfl | rfl | rfl <;> (rw [E.U.isSpace_ascii _ (by decide)]; decide)
    simp only [List.mem_cons, List.not_mem_nil, or_false] at this
    rcases this with rfl | rfl | rfl | rfl | rfl | rfl <;> simp [urlC, hs]
  have hhost : ∀ c ∈ host, urlC E.U c = true := by
    intro c hc
    obtain ⟨h1, h2, h3⟩ := alnum_not c (hchars c hc)
    have hs : E.U.isSpace c = false := by
      rw [E.U.isSpace_ascii c h3]
      have hx := hchars c hc
      have e1 : 'a'.toNat = 97 := rfl
      have e2 : 'A'.toNat = 65 := rfl
      have e3 : '0'.toNat = 48 := rfl
      have hge : 33 ≤ c.toNat := by
        simp only [isAsciiAlpha, isLowerC, isUpperC, isDigitC, Bool.or_eq_true, Bool.and_eq_true, decide_eq_true_eq] at hx
        rcases hx with (hx | hx) | hx | rfl | rfl
        · omega
        · omega
        · omega
        · decide
        · decide
      have hsp : c ≠ ' ' := by rintro rfl; exact absurd hge (by decide)
      simp only [hsp, decide_false, Bool.false_or, Bool.or_eq_false_iff, Bool.and_eq_false_iff, decide_eq_false_iff_not]
      omega
    simp only [List.mem_cons, List.not_mem_nil, or_false, not_or] at h1
    simp [urlC, hs, h1, h2]
  have hpath : ∀ c ∈ path, urlC E.U c = true := by
    intro c hc
    obtain ⟨h1, h2, h3, h4⟩ := pchars c hc
    simp [urlC, h1, h2, h3, h4]
  obtain ⟨hc0, hcs, hhc⟩ : ∃ c cs, host = c :: cs := by
    obtain ⟨c, hc, _⟩ := hletter
    cases host with
    | nil => simp at hc
    | cons c cs => exact ⟨c, cs, rfl⟩
  have hmatch : ((candRe E.U).ends (url ++ tail ++ post)).head? = some post := by
    have heq : url ++ tail ++ post = sch ++ c%"://" ++ hc0 :: (hcs ++ path ++ tail ++ post) := by rw [he, hhc]; simp
    rw [heq, candRe_url E.U sch hsch hc0 _ (hhost hc0 (by rw [hhc]; simp))]
    have h1 : hc0 :: (hcs ++ path ++ tail ++ post) = (host ++ path ++ tail) ++ post := by rw [hhc]; simp
    rw [h1]
    have h2 : ∀ c ∈ host ++ path ++ tail, urlC E.U c = true := by
      intro c hc
      exact (List.mem_append.1 hc).elim (fun hc => (List.mem_append.1 hc).elim (hhost c) (hpath c)) (hht c)
    congr 1
    rw [List.dropWhile_append_of_pos h2]
    cases post with
    | nil => rfl
    | cons y ys =>
      have hy := hpost y rfl
      have hys := (space_facts E y hy).1
      rw [List.dropWhile_cons_of_neg]
      simp [urlC, hys]
  -- the boundary before the URL
  have hsplit : ∃ b pre', '\n' :: pre = pre' ++ [b] ∧ isHtmlSpace b = true := by
    cases hl : pre.getLast? with
    | none =>
      have := List.getLast?_eq_none_iff.1 hl
      subst this
      exact ⟨'\n', [], rfl, by decide⟩
    | some b =>
      obtain ⟨ys, rfl⟩ := List.getLast?_eq_some_iff.1 hl
      exact ⟨b, '\n' :: ys, by simp, hpre b hl⟩
  obtain ⟨b, pre', hp', hb⟩ := hsplit
  have hplen : pre'.length = pre.length := by
    have := congrArg List.length hp'
    simp at this
    omega
  have htext : '\n' :: (pre ++ url ++ tail ++ post) = pre' ++ b :: (url ++ tail ++ post) := by
    have : '\n' :: (pre ++ url ++ tail ++ post) = ('\n' :: pre) ++ (url ++ tail ++ post) := by simp
    rw [this, hp']; simp
  rw [cands, htext]
  have := candsGo_reach E b hb (url ++ tail ++ post) post (by simp; omega) hmatch ((pre ++ url ++ tail ++ post).length + 1) 0 pre' (by
    rw [← htext]; simp)
  have hlen : (url ++ tail ++ post).length - post.length = (url ++ tail).length := by simp; omega
  rw [hlen, List.take_left' rfl, hplen, Nat.zero_add] at this
  exact this

/-- The hypotheses are met. -/
example : ∃ ms, findLinks LinkEnv.sample ⟨false, []⟩ (c%"1.2) \"x@y.com:\n" ++ c%"https://a-b.c/(d)" ++ c%"!?" ++ c%" )[") = .ok ms ∧
    Nonempty (PlainUrl LinkEnv.sample.U c%"https://a-b.c/(d)") := by
  refine ⟨_, by with_unfolding_all rfl, ⟨c%"https", c%"a-b.c", c%"/(d)", rfl, by decide, by decide, ⟨'a', by decide, by decide⟩, ?_, ?_, ?_, ?_, ?_, ?_, ?_⟩⟩
  · intro c h; simp at h; subst h; decide
  · intro c h; simp at h; subst h; decide
  · decide
  · intro c h; simp at h; exact h.symm
  · intro c h; simp at h; subst h; decide
  · decide
  · decide

end JH
