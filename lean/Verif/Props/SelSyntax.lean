import Verif.Lemmas.SelNth
import Verif.Props.SelOrder
/-! C67, C68: how selectors and their arguments are read. -/
namespace JH
open Spec

variable {U : Uni} {lim : SelLimits}

/-! ### C67 -/

/-- C67. Every spelling of `An+B` is read as `A` and `B`, whatever white space is around it: `odd` and `even` in any case, signs, a missing coefficient, spaces
around the sign. -/
theorem C67_nth_spelling {a b s : Str} {x y : Int} (h : NthText s x y) (ha : ∀ c ∈ a, U.isSpace c = true) (hb : ∀ c ∈ b, U.isSpace c = true) :
    parseNth U (some (a ++ s ++ b)) = some (x, y) := by
  have word : ∀ w : Str, lowerA s = w → w.all isLowerC = true → w ≠ [] →
      s ≠ [] ∧ s.all isAscii = true ∧ (∀ c, s.head? = some c → U.isSpace c = false) ∧ (∀ c, s.getLast? = some c → U.isSpace c = false) := by
    rintro w hw hl hne
    have key : ∀ c ∈ s, isAsciiAlpha c = true := by
      intro c hc
      have : lowerC c ∈ w := by rw [← hw]; exact List.mem_map.2 ⟨c, hc, rfl⟩
      have := List.all_eq_true.1 hl _ this
      rw [isAsciiAlpha]
      rw [lowerC] at this
      split at this
      · rename_i hu; rw [hu]; simp
      · rw [this]; rfl
    have hsp : ∀ c ∈ s, isAscii c = true ∧ U.isSpace c = false := by
      intro c hc
      have h := key c hc
      simp only [isAsciiAlpha, isLowerC, isUpperC, Bool.or_eq_true, Bool.and_eq_true, decide_eq_true_eq] at h
      have h1 : 'a'.toNat = 97 := rfl
      have h2 : 'z'.toNat = 122 := rfl
      have h3 : 'A'.toNat = 65 := rfl
      have h4 : 'Z'.toNat = 90 := rfl
      have ha : isAscii c = true := by simp only [isAscii, decide_eq_true_eq]; omega
      refine ⟨ha, ascii_plain ha ?_⟩
      have : c ≠ ' ' := by rintro rfl; exact absurd h (by decide)
      simp [this]; omega
    refine ⟨?_, List.all_eq_true.2 fun c hc => (hsp c hc).1, fun c hc => (hsp c (List.mem_of_mem_head? hc)).2, fun c hc => (hsp c (List.mem_of_getLast? hc)).2⟩
    rintro rfl; exact hne hw.symm
  have lower : ∀ e : Str, (∀ c, s.head? = some c → U.isSpace c = false) → (∀ c, s.getLast? = some c → U.isSpace c = false) → s.all isAscii = true →
      lowerA s = e → U.lower (stripP U.isSpace (a ++ s ++ b)) = e := by
    intro e h1 h2 h3 h4
    rw [strip_blank h1 h2 ha hb, U.lower_ascii s h3, h4]
  have ne : ∀ t : Str, t ≠ [] → a ++ t ++ b ≠ [] := by intro t ht; simp [ht]
  rcases nthForm (U := U) h with ⟨h', rfl, rfl⟩ | ⟨h', rfl, rfl⟩ | ⟨e, f⟩
  · obtain ⟨h1, h2, h3, h4⟩ := word _ h' (by decide) (by simp)
    have hl := lower _ h3 h4 h2 h'
    have := ne s h1
    rcases e : a ++ s ++ b with _ | ⟨c, cs⟩
    · exact absurd e this
    · rw [e] at hl
      rw [parseNth.eq_def]
      dsimp only
      rw [hl]; rfl
  · obtain ⟨h1, h2, h3, h4⟩ := word _ h' (by decide) (by simp)
    have hl := lower _ h3 h4 h2 h'
    have := ne s h1
    rcases e : a ++ s ++ b with _ | ⟨c, cs⟩
    · exact absurd e this
    · rw [e] at hl
      rw [parseNth.eq_def]
      dsimp only
      rw [hl]; rfl
  · rw [parseNth_eq (ne s f.ne) (lower e f.head f.last f.ascii f.lower) f.odd.1 f.odd.2]
    exact f.rest

/-- C67. A quoted argument of `:contains` stands for the text between the quotes, with backslashes before quotes and backslashes removed. -/
theorem C67_contains_quoted {a b v : Str} {q : Char} (hq : q = '"' ∨ q = '\'') (ha : ∀ c ∈ a, U.isSpace c = true) (hb : ∀ c ∈ b, U.isSpace c = true) :
    unquoteArg U (a ++ (q :: quoteBody q v ++ [q]) ++ b) = v := by
  have hs : U.isSpace q = false := by rcases hq with rfl | rfl <;> exact ascii_plain (by decide) (by decide)
  have hq' : q ≠ '\\' := by rcases hq with rfl | rfl <;> decide
  have e : stripP U.isSpace (a ++ (q :: quoteBody q v ++ [q]) ++ b) = q :: quoteBody q v ++ [q] :=
    strip_blank (by intro c hc; rw [← Option.some.inj hc]; exact hs) (last_snoc hs) ha hb
  rw [unquoteArg, e]
  dsimp only [List.head?_cons, List.cons_append]
  rw [if_pos]
  · rw [List.tail_cons, List.dropLast_concat, replace_quote hq', replace_doubled]
  · refine ⟨by simp, ?_, hq⟩
    rw [← List.cons_append, List.getLast?_concat]

/-- C67. Any other argument of `:contains` stands for itself, without the white space at its ends. -/
theorem C67_contains_plain {a : Str} (h : ∀ q b, q = '"' ∨ q = '\'' → stripP U.isSpace a ≠ q :: b ++ [q]) : unquoteArg U a = stripP U.isSpace a := by
  rw [unquoteArg]
  generalize stripP U.isSpace a = s at h
  cases s with
  | nil => rfl
  | cons c s =>
    dsimp only [List.head?_cons]
    rw [if_neg]
    rintro ⟨h1, h2, h3⟩
    apply h c s.dropLast h3
    cases s with
    | nil => simp at h1
    | cons d s =>
      rw [List.getLast?_cons_cons] at h2
      rw [List.cons_append]
      congr 1
      obtain ⟨l, e⟩ := List.getLast?_eq_some_iff.1 h2
      rw [e, List.dropLast_concat]

/-! ### C68 -/

/-- C68. Every text that spells a selector, with any white space around it, is parsed, and gives that selector, if it keeps within the limits. -/
theorem C68_spelling_is_parsed {k : Nat} {a s b : Str} {sel : Sel} (h : SelText U k s sel) (ha : ∀ c ∈ a, U.isSpace c = true) (hb : ∀ c ∈ b, U.isSpace c = true)
    (hl : s.length ≤ lim.maxLength) (hf : FitsLimits lim sel) : ∃ sel', parseSelector U lim (a ++ s ++ b) = some sel' ∧ eraseSel sel' = sel := by
  have he := text_ends h
  have hs : stripP U.isSpace (a ++ s ++ b) = s := by
    refine strip_blank ?_ he.last ha hb
    obtain ⟨c, cs, rfl, _, h2⟩ := he.head
    intro d hd; rw [← Option.some.inj hd]; exact h2
  have hne : s ≠ [] := by obtain ⟨c, cs, rfl, _⟩ := he.head; simp
  obtain ⟨sel', n', e1, e2⟩ := parseSelAt_text (lim.maxParseDepth + 1) k s sel h
    (fun j t ht hn => ⟨Nat.lt_succ_of_le (hf j t ht hn).1, (hf j t ht hn).2⟩) 0
  refine ⟨sel', ?_, e2⟩
  rw [parseSelector, hs]
  rw [if_neg hne, if_neg (by omega), e1]
  rfl

/-- C68. So a text spells at most one selector. -/
theorem C68_spelling_is_unique {k m : Nat} {s : Str} {sel sel2 : Sel} (h : SelText U k s sel) (h2 : SelText U m s sel2) (hf : FitsLimits lim sel) (hf2 : FitsLimits lim sel2) :
    sel = sel2 := by
  let l : SelLimits := { lim with maxLength := s.length }
  obtain ⟨a, e, rfl⟩ := C68_spelling_is_parsed (lim := l) (a := []) (b := []) h (by simp) (by simp) (Nat.le_refl _) hf
  obtain ⟨b, e', rfl⟩ := C68_spelling_is_parsed (lim := l) (a := []) (b := []) h2 (by simp) (by simp) (Nat.le_refl _) hf2
  rw [e] at e'
  rw [Option.some.inj e']

mutual
theorem satSimple_erase (unq : Str → Str) (h : Heap) : ∀ (s : Simple) (n : Nat), satSimple U unq h (eraseSimple s) n ↔ satSimple U unq h s n
  | .tag _, n => by rw [eraseSimple]
  | .id _, n => by rw [eraseSimple]
  | .cls _, n => by rw [eraseSimple]
  | .universal, n => by rw [eraseSimple]
  | .attr _ _, n => by rw [eraseSimple]
  | .pseudo m a i, n => by rw [eraseSimple, satSimple, satSimple, propext (satSel_erase unq h i n)]
theorem satSimples_erase (unq : Str → Str) (h : Heap) : ∀ (s : List Simple) (n : Nat), satSimples U unq h (eraseSimples s) n ↔ satSimples U unq h s n
  | [], n => by rw [eraseSimples]
  | x :: xs, n => by rw [eraseSimples, satSimples, satSimples, propext (satSimple_erase unq h x n), propext (satSimples_erase unq h xs n)]
theorem satCompound_erase (unq : Str → Str) (h : Heap) : ∀ (s : Compound) (n : Nat), satCompound U unq h (eraseCompound s) n ↔ satCompound U unq h s n
  | .mk _ l, n => by rw [eraseCompound, satCompound, satCompound, propext (satSimples_erase unq h l n)]
theorem satComplex_erase (unq : Str → Str) (h : Heap) : ∀ (s : Complex) (n : Nat), satComplex U unq h (eraseComplex s) n ↔ satComplex U unq h s n
  | .one c, n => by rw [eraseComplex, satComplex, satComplex, propext (satCompound_erase unq h c n)]
  | .comb l o c, n => by
    rw [eraseComplex, satComplex, satComplex, propext (satCompound_erase unq h c n)]
    exact and_congr_right fun _ => exists_congr fun m => and_congr_right fun _ => satComplex_erase unq h l m
theorem satSel_erase (unq : Str → Str) (h : Heap) : ∀ (s : List Complex) (n : Nat), satSel U unq h (eraseSel s) n ↔ satSel U unq h s n
  | [], n => by rw [eraseSel]
  | x :: xs, n => by rw [eraseSel, satSel, satSel, propext (satComplex_erase unq h x n), propext (satSel_erase unq h xs n)]
end

theorem lastComb_erase (x : Complex) : lastComb (eraseComplex x) = lastComb x := by
  cases x <;> rw [eraseComplex] <;> rfl

mutual
theorem easySimple_erase : ∀ s : Simple, easySimple (eraseSimple s) ↔ easySimple s
  | .tag _ => by rw [eraseSimple]
  | .id _ => by rw [eraseSimple]
  | .cls _ => by rw [eraseSimple]
  | .universal => by rw [eraseSimple]
  | .attr _ _ => by rw [eraseSimple]
  | .pseudo m a i => by rw [eraseSimple, easySimple, easySimple, propext (easySel_erase i)]
theorem easySimples_erase : ∀ s : List Simple, easySimples (eraseSimples s) ↔ easySimples s
  | [] => by rw [eraseSimples]
  | x :: xs => by rw [eraseSimples, easySimples, easySimples, propext (easySimple_erase x), propext (easySimples_erase xs)]
theorem easyCompound_erase : ∀ s : Compound, easyCompound (eraseCompound s) ↔ easyCompound s
  | .mk _ l => by rw [eraseCompound, easyCompound, easyCompound, propext (easySimples_erase l)]
theorem easyComplex_erase : ∀ s : Complex, easyComplex (eraseComplex s) ↔ easyComplex s
  | .one c => by rw [eraseComplex, easyComplex, easyComplex, propext (easyCompound_erase c)]
  | .comb l o c => by rw [eraseComplex, easyComplex, easyComplex, propext (easyCompound_erase c), propext (easyComplex_erase l), lastComb_erase]
theorem easySel_erase : ∀ s : List Complex, easySel (eraseSel s) ↔ easySel s
  | [] => by rw [eraseSel]
  | x :: xs => by rw [eraseSel, easySel, easySel, propext (easyComplex_erase x), propext (easySel_erase xs)]
end

theorem isComment_erase (s : Simple) : (eraseSimple s).isComment = s.isComment := by
  cases s <;> rw [eraseSimple] <;> rfl

theorem anyComment_erase (l : List Simple) : (eraseSimples l).any Simple.isComment = l.any Simple.isComment := by
  induction l with
  | nil => rw [eraseSimples]
  | cons a l ih => rw [eraseSimples, List.any_cons, List.any_cons, isComment_erase, ih]

theorem allowsNon_erase (x : Complex) : (eraseComplex x).allowsNon = x.allowsNon :=
  match x with
  | .one (.mk _ l) => by rw [eraseComplex, eraseCompound]; exact anyComment_erase l
  | .comb l _ (.mk _ m) => by
    rw [eraseComplex, eraseCompound, Complex.allowsNon, Complex.allowsNon, allowsNon_erase l]
    congr 1
    exact anyComment_erase m

theorem asks_erase (sel : Sel) : AsksComments (eraseSel sel) ↔ AsksComments sel := by
  rw [← allows_iff, ← allows_iff, allowsNonElements, allowsNonElements]
  have : (eraseSel sel).any Complex.allowsNon = sel.any Complex.allowsNon := by
    induction sel with
    | nil => rw [eraseSel]
    | cons a l ih => rw [eraseSel, List.any_cons, List.any_cons, allowsNon_erase, ih]
  rw [this]

/-- C68 and C43 together, from the text to the result: what `query()` returns for a text that spells `sel` is what `sel` asks for. (Descendant combinators,
`~` right after `+`: see C43.) -/
theorem C68_query_text {h : Heap} (r : TidyReachable h) {k root : Nat} {a s b : Str} {sel : Sel} {out : List Nat} (ht : SelText U k s sel)
    (ha : ∀ c ∈ a, U.isSpace c = true) (hb : ∀ c ∈ b, U.isSpace c = true) (hl : s.length ≤ lim.maxLength) (hf : FitsLimits lim sel) (he : easySel sel)
    (hq : query U lim h root (a ++ s ++ b) = some out) : Answers U (unquoteArg U) h root sel out := by
  obtain ⟨sel', hp, rfl⟩ := C68_spelling_is_parsed ht ha hb hl hf
  obtain ⟨l, h1, h2, h3, h4⟩ := C43_query_easy_partial r hp ((easySel_erase sel').1 he) hq
  refine ⟨l, h1, h2, h3, fun n hn => ?_⟩
  rw [h4 n hn, propext (asks_erase sel'), propext (satSel_erase (unquoteArg U) h sel' n)]

theorem forwardChain_erase (x : Complex) : forwardChain (eraseComplex x) ↔ forwardChain x :=
  match x with
  | .one _ => by rw [eraseComplex]; exact Iff.rfl
  | .comb l o c => by
    rw [eraseComplex, forwardChain, forwardChain, propext (forwardChain_erase l), Forward, Forward, lastComb_erase]

theorem easyInside_erase (x : Complex) : easyInside (eraseComplex x) ↔ easyInside x :=
  match x with
  | .one c => by rw [eraseComplex, easyInside, easyInside, propext (easyCompound_erase c)]
  | .comb l o c => by rw [eraseComplex, easyInside, easyInside, propext (easyInside_erase l), propext (easyCompound_erase c)]

/-- The same for `matches()`, where descendant combinators are allowed as long as nothing but descendant combinators stands to their left. -/
theorem C68_matches_text {h : Heap} (r : TidyReachable h) {k n : Nat} {a s b : Str} {sel : Sel} {o : Bool} (ht : SelText U k s sel)
    (ha : ∀ c ∈ a, U.isSpace c = true) (hb : ∀ c ∈ b, U.isSpace c = true) (hl : s.length ≤ lim.maxLength) (hf : FitsLimits lim sel)
    (he : ∀ x ∈ sel, forwardChain x ∧ easyInside x) (hm : selMatches U lim h n (a ++ s ++ b) = some o) : o = true ↔ satSel U (unquoteArg U) h sel n := by
  obtain ⟨sel', hp, rfl⟩ := C68_spelling_is_parsed ht ha hb hl hf
  rw [propext (satSel_erase (unquoteArg U) h sel' n)]
  refine C43_matches_easy_partial r hp (fun x hx => ?_) hm
  have := he (eraseComplex x) (by rw [eraseSel_map]; exact List.mem_map.2 ⟨x, hx, rfl⟩)
  exact ⟨(forwardChain_erase x).1 this.1, (easyInside_erase x).1 this.2⟩

/-! ### Non-trivial cases -/

example : NthText c%"-N + 3" (-1) (1 * (3 : Nat)) :=
  .full (t := c%"-") (n := 'N') (x := c%" ") (g := c%"+") (y := c%" ") (ds := c%"3") (.sign (.inr (.inr ⟨rfl, rfl⟩))) (.inr rfl) (by simp [Spaces]) (.inl ⟨rfl, rfl⟩)
    (by simp [Spaces]) ⟨by simp, by simp, by decide, rfl⟩

example : parseNth Uni.sample (some c%" -N + 3 ") = some (-1, 3) := by decide +kernel

example : unquoteArg Uni.sample c%"'it\\'s'" = c%"it's" := by decide +kernel

/-- `div.a > P:not([lang |= "e\"n"],#x) , *` -/
def sampleText : Str := c%"div.a > P:not([lang |= \"e\\\"n\"],#x) , *"

theorem sampleIdent {t : Str} (hn : t ≠ []) (h : t.all (fun c => isAsciiAlpha c) = true) : Ident Uni.sample t := by
  refine ⟨hn, fun c hc => ?_⟩
  have hc := List.all_eq_true.1 h c hc
  have ha : isAscii c = true := by
    simp only [isAsciiAlpha, isLowerC, isUpperC, Bool.or_eq_true, Bool.and_eq_true, decide_eq_true_eq] at hc
    have h2 : 'z'.toNat = 122 := rfl
    have h4 : 'Z'.toNat = 90 := rfl
    simp only [isAscii, decide_eq_true_eq]; omega
  refine ⟨.inl (by rw [Uni.sample.isAlpha_ascii c ha, hc]), ascii_plain ha ?_⟩
  simp only [isAsciiAlpha, isLowerC, isUpperC, Bool.or_eq_true, Bool.and_eq_true, decide_eq_true_eq] at hc
  have h1 : 'a'.toNat = 97 := rfl
  have h3 : 'A'.toNat = 65 := rfl
  have : c ≠ ' ' := by rintro rfl; exact absurd hc (by decide)
  simp [this]; omega

theorem sampleTag {t : Str} (hn : t ≠ []) (h : t.all (fun c => isAsciiAlpha c) = true) : TagIdent Uni.sample t := by
  refine ⟨sampleIdent hn h, fun c hc => .inl ?_⟩
  have hc := List.all_eq_true.1 h c (List.mem_of_mem_head? hc)
  have ha : isAscii c = true := by
    simp only [isAsciiAlpha, isLowerC, isUpperC, Bool.or_eq_true, Bool.and_eq_true, decide_eq_true_eq] at hc
    have h2 : 'z'.toNat = 122 := rfl
    have h4 : 'Z'.toNat = 90 := rfl
    simp only [isAscii, decide_eq_true_eq]; omega
  rw [Uni.sample.isAlpha_ascii c ha, hc]

/-- The text is a spelling of the selector one expects. -/
theorem sampleText_spells : SelText Uni.sample 1 sampleText
    [.comb (.one (.mk 0 [.tag c%"div", .cls c%"a"])) .child
      (.mk 0 [.tag c%"p", .pseudo c%"not" (some c%"[lang |= \"e\\\"n\"],#x") [.one (.mk 0 [.attr c%"lang" (some (c%"|=", c%"e\"n"))]), .one (.mk 0 [.id c%"x"])]]),
     .one (.mk 0 [.universal])] := by
  have hin : SelText Uni.sample 0 c%"[lang |= \"e\\\"n\"],#x" [.one (.mk 0 [.attr c%"lang" (some (c%"|=", c%"e\"n"))]), .one (.mk 0 [.id c%"x"])] := by
    refine ListText.more (t := c%"[lang |= \"e\\\"n\"]") (a := []) (b := []) (u := c%"#x") (l := [_]) (.one (.one (.one ?_))) (by simp [Blank]) (by simp [Blank]) (.one (.one ?_)) (by simp)
    · exact SimpleText.attr (t := c%"lang") (op := c%"|=") (v := c%"\"e\\\"n\"") (a := []) (b := c%" ") (x := c%" ") (y := [])
        (sampleIdent (by simp) (by decide)) (by decide) (.inl ⟨'"', c%"e\\\"n", .inl rfl, rfl, .plain (by decide) (by decide) (.esc (.plain (by decide) (by decide) .nil))⟩)
        (by simp [Blank]) (by simp [Blank, isHtmlSpace]) (by simp [Blank, isHtmlSpace]) (by simp [Blank])
    · exact SimpleText.id (t := c%"x") (sampleIdent (by simp) (by decide))
  refine ListText.more (t := c%"div.a > P:not([lang |= \"e\\\"n\"],#x)") (a := c%" ") (b := c%" ") (u := c%"*") (l := [_]) (.one ?_)
    (by simp [Blank, isHtmlSpace]) (by simp [Blank, isHtmlSpace]) (.one (.one .universal)) (by simp)
  refine ComplexText.comb (t := c%"div.a") (w := c%" > ") (u := c%"P:not([lang |= \"e\\\"n\"],#x)") (.one ?_)
    (.child (a := c%" ") (b := c%" ") (by simp [Blank, isHtmlSpace]) (by simp [Blank, isHtmlSpace])) ?_
  · exact CompoundText.more (t := c%"div") (u := c%".a") (l := [_]) (.one (.tag (sampleTag (by simp) (by decide)))) (.cls (sampleIdent (by simp) (by decide))) (by simp) (by simp)
  · refine CompoundText.more (t := c%"P") (u := c%":not([lang |= \"e\\\"n\"],#x)") (l := [_]) (.one (.tag (t := c%"P") (sampleTag (by simp) (by decide)))) ?_ (by simp) (by simp)
    exact SimpleText.not (t := c%"not") (a := []) (b := []) (sampleIdent (by simp) (by decide)) (by decide) hin
      ⟨by simp, by intro c hc; rw [← Option.some.inj hc]; exact ascii_plain (by decide) (by decide), by intro c hc; rw [← Option.some.inj hc]; exact ascii_plain (by decide) (by decide), by decide⟩
      (by simp [Blank]) (by simp [Blank])

/-- The limits are met by a selector with nothing inside. -/
example : FitsLimits {} [.one (.mk 0 [.tag c%"div", .cls c%"a"])] := by
  intro k t ht _
  cases ht with
  | here => 
    refine ⟨by simp, by simp, fun x hx => ?_⟩
    rw [List.mem_singleton] at hx
    subst hx
    refine ⟨by simp [partCount], fun c hc => ?_⟩
    cases hc
    simp [Compound.simples]
  | down h1 h2 h3 _ =>
    rw [List.mem_singleton] at h1
    subst h1
    cases h2
    simp [Compound.simples] at h3

/-- Finding: an argument with a parenthesis in a quoted string is not read, which is why `ArgText` asks for matching parentheses. -/
example : parseSelector Uni.sample {} c%":contains(\")\")" = none := by with_unfolding_all rfl

end JH
