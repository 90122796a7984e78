import Verif.Lemmas.SelQuery
import Verif.Lemmas.Strings
import Verif.Spec.SelSyntax
/-! Tokens of texts that spell selectors. -/
namespace JH
open Spec

variable {U : Uni}

/-! ### Rounds of the tokenizer -/

theorem dropWhile_le {α : Type} (p : α → Bool) (l : List α) : (l.dropWhile p).length ≤ l.length := by
  induction l with
  | nil => simp
  | cons a l ih =>
    rw [List.dropWhile_cons]
    split
    · simp only [List.length_cons]; omega
    · exact Nat.le_refl _

theorem skipWs_le (s : Str) : (skipWs s).length ≤ s.length := dropWhile_le _ s

theorem readName_le (s : Str) : (readName U s).2.length ≤ s.length := by
  rw [readName, span_take]; exact dropWhile_le _ s

theorem readUnquoted_le (s : Str) : (readUnquoted s).2.length ≤ s.length := by
  rw [readUnquoted, span_take]; exact dropWhile_le _ s

theorem readQuoted_le (q : Char) : ∀ (s : Str) (r : Str × Str), readQuoted q s = some r → r.2.length ≤ s.length
  | [], r, h => by rw [readQuoted] at h; cases h
  | [c], r, h => by
    rw [readQuoted.eq_def] at h
    dsimp only at h
    split at h
    · cases h; simp
    · split at h
      · cases h
      · simp only [readQuoted, Option.map_none, reduceCtorEq] at h
  | c :: d :: ds, r, h => by
    rw [readQuoted.eq_def] at h
    dsimp only at h
    split at h
    · cases h; simp
    · split at h
      · rcases e : readQuoted q ds with _ | x
        · rw [e] at h; simp at h
        · rw [e] at h
          simp only [Option.map_some, Option.some.injEq] at h
          subst h
          have := readQuoted_le q ds x e
          simp only [List.length_cons]; omega
      · rcases e : readQuoted q (d :: ds) with _ | x
        · rw [e] at h; simp at h
        · rw [e] at h
          simp only [Option.map_some, Option.some.injEq] at h
          subst h
          have := readQuoted_le q (d :: ds) x e
          simp only [List.length_cons] at this ⊢; omega

theorem readArg_le : ∀ (s : Str) (d : Nat), (readArg d s).2.length ≤ s.length
  | [], d => by rw [readArg]; exact Nat.le_refl _
  | c :: cs, d => by
    rw [readArg]
    split
    · have := readArg_le cs (d + 1); simp only [List.length_cons]; omega
    · split
      · split
        · exact Nat.le_refl _
        · have := readArg_le cs (d - 1); simp only [List.length_cons]; omega
      · have := readArg_le cs d; simp only [List.length_cons]; omega

theorem tokAttrValue_le {n o s r : Str} {ts : List STok} (h : tokAttrValue n o s = some (ts, r)) : r.length ≤ s.length := by
  rw [tokAttrValue] at h
  have hv : ∀ v q, (match skipWs s with
    | c :: cs => if c = '"' ∨ c = '\'' then readQuoted c cs else some (readUnquoted (skipWs s))
    | [] => some ([], [])) = some (v, q) → q.length ≤ s.length := by
    intro v q hq
    have hs := skipWs_le s
    split at hq
    · rename_i c cs e
      rw [e] at hs
      split at hq
      · have := readQuoted_le _ _ _ hq
        simp only [List.length_cons] at hs this; omega
      · simp only [Option.some.injEq] at hq
        have := readUnquoted_le (c :: cs)
        rw [← e, hq, e] at this
        simp only at this
        omega
    · cases hq; simp
  split at h
  · cases h
  · rename_i v q e
    have h1 := hv v q e
    have h2 := skipWs_le q
    split at h
    · rename_i r' e'
      cases h
      rw [e'] at h2
      simp only [List.length_cons] at h2; omega
    · cases h

theorem tokAttr_le {s r : Str} {ts : List STok} (h : tokAttr U s = some (ts, r)) : r.length ≤ s.length := by
  rw [tokAttr] at h
  have h1 := skipWs_le s
  have h2 := readName_le (U := U) (skipWs s)
  have h3 := skipWs_le (readName U (skipWs s)).2
  split at h
  · cases h
  · split at h
    · cases h
    · rename_i c r' e
      rw [e] at h3
      simp only [List.length_cons] at h3
      split at h
      · cases h; omega
      · split at h
        · have := tokAttrValue_le h; omega
        · split at h
          · split at h
            · rename_i r'' 
              have := tokAttrValue_le h
              simp only [List.length_cons] at h3
              omega
            · cases h
          · cases h

theorem tokPseudo_le {s r : Str} {ts : List STok} (h : tokPseudo U s = some (ts, r)) : r.length ≤ s.length := by
  rw [tokPseudo] at h
  have h2 := readName_le (U := U) s
  split at h
  · cases h
  · split at h
    · rename_i r' e
      rw [e] at h2
      have h3 := skipWs_le r'
      have h4 := readArg_le (skipWs r') 1
      dsimp only at h
      split at h
      · rename_i r'' e'
        cases h
        rw [e'] at h4
        simp only [List.length_cons] at h4 h2; omega
      · cases h
    · cases h; exact h2

theorem tokMain_le {c : Char} {cs r : Str} {ts : List STok} (h : tokMain U c cs = some (ts, r)) : r.length ≤ cs.length := by
  rw [tokMain] at h
  split at h
  · cases h; exact Nat.le_refl _
  split at h
  · dsimp only at h
    split at h
    · cases h
    · cases h; exact readName_le cs
  split at h
  · dsimp only at h
    split at h
    · cases h
    · cases h; exact readName_le cs
  split at h
  · exact tokAttr_le h
  split at h
  · cases h; exact skipWs_le cs
  split at h
  · exact tokPseudo_le h
  split at h
  · rename_i hn
    cases h
    have : isNameChar U c = true := by rw [isNameChar, hn]; rfl
    rw [readName, span_take, List.dropWhile_cons_of_pos this]
    exact dropWhile_le _ cs
  · cases h

theorem tokStep_le {p ne : Bool} {c : Char} {cs r : Str} {p' : Bool} {ts : List STok} (h : tokStep U p ne c cs = some (ts, p', r)) : r.length ≤ cs.length := by
  rw [tokStep] at h
  split at h
  · cases h; exact skipWs_le cs
  · split at h
    · cases h; exact skipWs_le cs
    · rcases e : tokMain U c cs with _ | ⟨a, b⟩
      · rw [e] at h; cases h
      · rw [e] at h
        simp only [Option.map_some, Option.some.injEq, Prod.mk.injEq] at h
        rw [← h.2.2]
        exact tokMain_le e

theorem tokLoop_fuel : ∀ (f g : Nat) (p ne : Bool) (s : Str), s.length < f → s.length < g → tokLoop U f p ne s = tokLoop U g p ne s
  | 0, _, _, _, _, h, _ => by omega
  | _ + 1, 0, _, _, _, _, h => by omega
  | f + 1, g + 1, _, _, [], _, _ => by rw [tokLoop, tokLoop]
  | f + 1, g + 1, p, ne, c :: cs, hf, hg => by
    rw [tokLoop, tokLoop]
    rcases e : tokStep U p ne c cs with _ | ⟨ts, p', r⟩
    · rfl
    · have := tokStep_le e
      simp only [List.length_cons] at hf hg
      dsimp only
      rw [tokLoop_fuel f g p' _ r (by omega) (by omega)]

/-- The loop with enough rounds. -/
def tok (U : Uni) (p ne : Bool) (s : Str) : Option (List STok) := tokLoop U (s.length + 1) p ne s

theorem tok_nil (p ne : Bool) : tok U p ne [] = some [.eof] := rfl

theorem tok_cons (p ne : Bool) (c : Char) (cs : Str) {ts : List STok} {p' : Bool} {r : Str} (h : tokStep U p ne c cs = some (ts, p', r)) :
    tok U p ne (c :: cs) = (tok U p' (ne || !ts.isEmpty) r).map (ts ++ ·) := by
  have := tokStep_le h
  rw [tok, tokLoop, h]
  dsimp only
  rw [tok, tokLoop_fuel _ (r.length + 1) p' _ r (by simp only [List.length_cons]; omega) (by omega)]

/-! ### Blanks and names -/

theorem skipWs_blank {w : Str} (hw : Blank w) {r : Str} (hr : ∀ c, r.head? = some c → isHtmlSpace c = false) : skipWs (w ++ r) = r := by
  induction w with
  | nil =>
    rw [List.nil_append, skipWs]
    cases r with
    | nil => rfl
    | cons c cs => rw [List.dropWhile_cons_of_neg]; rw [hr c rfl]; simp
  | cons c w ih =>
    rw [List.cons_append, skipWs, List.dropWhile_cons_of_pos (hw c (by simp))]
    exact ih fun d hd => hw d (by simp [hd])

theorem nameCh_char {c : Char} (h : NameCh U c) : isNameChar U c = true := by
  simp only [isNameChar, isNameStart, Bool.or_eq_true, decide_eq_true_eq]
  rcases h.1 with h | h | h | h | h
  · exact .inl (.inl (.inl (.inl h)))
  · exact .inr h
  · exact .inl (.inl (.inl (.inr h)))
  · exact .inl (.inl (.inr h))
  · exact .inl (.inr h)

theorem readName_append {t r : Str} (ht : Ident U t) (hr : ∀ c, r.head? = some c → isNameChar U c = false) : readName U (t ++ r) = (t, r) := by
  rw [readName, span_take]
  have hm := ht.2
  clear ht
  induction t with
  | nil =>
    cases r with
    | nil => rfl
    | cons c r =>
      have := hr c rfl
      simp [this]
  | cons c t ih =>
    have hc := nameCh_char (hm c (by simp))
    have := ih fun d hd => hm d (by simp [hd])
    simp only [Prod.mk.injEq] at this
    simp [hc, this.1, this.2]

theorem ascii_name {c : Char} (h : isAscii c = true) : isNameChar U c = (isAsciiAlpha c || isDigitC c || c = '_' || c = '-') := by
  have : ¬ 127 < c.toNat := by simp only [isAscii, decide_eq_true_eq] at h; omega
  rw [isNameChar, isNameStart, U.isAlpha_ascii c h, U.isDigit_ascii c h]
  simp only [this, decide_false, Bool.or_false]
  cases isAsciiAlpha c <;> cases isDigitC c <;> simp

theorem space_ascii {c : Char} (h : isHtmlSpace c = true) : isAscii c = true ∧ U.isSpace c = true ∧ isNameChar U c = false := by
  simp only [isHtmlSpace, Bool.or_eq_true, decide_eq_true_eq] at h
  have key : ∀ d : Char, isAscii d = true → (decide (d = ' ') || (decide (9 ≤ d.toNat) && decide (d.toNat ≤ 13)) || (decide (28 ≤ d.toNat) && decide (d.toNat ≤ 31))) = true →
      (isAsciiAlpha d || isDigitC d || d = '_' || d = '-') = false → isAscii d = true ∧ U.isSpace d = true ∧ isNameChar U d = false := by
    intro d h1 h2 h3
    exact ⟨h1, by rw [U.isSpace_ascii d h1, h2], by rw [ascii_name h1, h3]⟩
  rcases h with (((rfl | rfl) | rfl) | rfl) | rfl <;> exact key _ (by decide) (by decide) (by decide)

/-- What can follow a name. -/
def Boundary (U : Uni) (r : Str) : Prop := ∀ c, r.head? = some c → isNameChar U c = false ∧ c ≠ '('

theorem Boundary.name {r : Str} (h : Boundary U r) : ∀ c, r.head? = some c → isNameChar U c = false := fun c hc => (h c hc).1

/-! ### Values and arguments -/

theorem readQuoted_escaped {q : Char} {b v : Str} (h : EscapedIn q b v) (hq : q ≠ '\\') (r : Str) : readQuoted q (b ++ q :: r) = some (v, r) := by
  induction h with
  | nil => rw [List.nil_append, readQuoted.eq_def]; simp
  | plain h1 h2 _ ih => rw [List.cons_append, readQuoted.eq_def]; dsimp only; rw [if_neg h1, if_neg h2, ih]; rfl
  | esc _ ih =>
    rw [List.cons_append, List.cons_append, readQuoted.eq_def]
    dsimp only
    rw [if_neg (fun e => hq e.symm), if_pos rfl, ih]; rfl

theorem readUnquoted_append {v r : Str} (hv : ∀ c ∈ v, isHtmlSpace c = false ∧ c ≠ ']') (hr : ∃ c r', r = c :: r' ∧ (isHtmlSpace c = true ∨ c = ']')) :
    readUnquoted (v ++ r) = (v, r) := by
  rw [readUnquoted, span_take]
  induction v with
  | nil =>
    obtain ⟨c, r', rfl, h⟩ := hr
    have : (!(isHtmlSpace c || decide (c = ']'))) = false := by rcases h with h | h <;> simp [h]
    rw [List.nil_append, List.takeWhile_cons, List.dropWhile_cons]
    simp only [this]; rfl
  | cons c v ih =>
    have hc := hv c (by simp)
    have := ih fun d hd => hv d (by simp [hd])
    simp only [Prod.mk.injEq] at this
    have e : (!(isHtmlSpace c || decide (c = ']'))) = true := by simp [hc.1, hc.2]
    rw [List.cons_append, List.takeWhile_cons, List.dropWhile_cons]
    simp only [e, this.1, this.2, if_true]

theorem blank_head {w r : Str} (hw : Blank w) {x : Char} (hr : r.head? = some x) : ∃ c r', w ++ r = c :: r' ∧ (isHtmlSpace c = true ∨ c = x) := by
  cases w with
  | nil =>
    cases r with
    | nil => cases hr
    | cons c r => exact ⟨c, r, rfl, .inr (Option.some.inj hr)⟩
  | cons c w => exact ⟨c, w ++ r, rfl, .inl (hw c (by simp))⟩

theorem tokAttrValue_text {n o x v w y r : Str} (hv : ValueText v w) (hx : Blank x) (hy : Blank y) :
    tokAttrValue n o (x ++ (v ++ (y ++ ']' :: r))) = some ([.attrStart, .tag n, .attrOp o, .string w, .attrEnd], r) := by
  have hs : skipWs (y ++ ']' :: r) = ']' :: r := skipWs_blank hy (by intro c hc; cases hc; decide)
  rcases hv with ⟨q, b, hq, rfl, he⟩ | ⟨rfl, hv, hh⟩
  · have hq1 : isHtmlSpace q = false := by rcases hq with rfl | rfl <;> decide
    have hq2 : q ≠ '\\' := by rcases hq with rfl | rfl <;> decide
    have h1 : skipWs (x ++ (q :: b ++ [q] ++ (y ++ ']' :: r))) = q :: (b ++ q :: (y ++ ']' :: r)) := by
      rw [skipWs_blank hx]
      · simp
      · intro c hc; cases hc; exact hq1
    rw [tokAttrValue]
    simp only [h1]
    rw [if_pos hq, readQuoted_escaped he hq2]
    dsimp only
    rw [hs]; rfl
  · cases v with
    | nil =>
      have h1 : skipWs (x ++ ([] ++ (y ++ ']' :: r))) = ']' :: r := by
        rw [List.nil_append, ← List.append_assoc]
        exact skipWs_blank (fun c hc => (List.mem_append.1 hc).elim (hx c) (hy c)) (by intro c hc; cases hc; decide)
      rw [tokAttrValue]
      simp only [h1]
      rw [if_neg (by decide)]
      have : readUnquoted (']' :: r) = ([], ']' :: r) := readUnquoted_append (v := []) nofun ⟨']', r, rfl, .inr rfl⟩
      rw [this]
      dsimp only
      rw [show skipWs (']' :: r) = ']' :: r from rfl]; rfl
    | cons c v =>
      have h1 : skipWs (x ++ (c :: v ++ (y ++ ']' :: r))) = c :: (v ++ (y ++ ']' :: r)) := by
        rw [skipWs_blank hx]
        · rfl
        · intro d hd; cases hd; exact (hv c (by simp)).1
      rw [tokAttrValue]
      simp only [h1]
      rw [if_neg (by have := hh c rfl; simp only [not_or]; exact this)]
      have : readUnquoted (c :: (v ++ (y ++ ']' :: r))) = (c :: v, y ++ ']' :: r) :=
        readUnquoted_append (v := c :: v) hv (blank_head hy (r := ']' :: r) rfl)
      rw [this]
      dsimp only
      rw [hs]; rfl

theorem readArg_balanced : ∀ (s : Str) (d : Nat) (r : Str), balanced d s = true →
    readArg (d + 1) (s ++ r) = (s ++ (readArg 1 r).1, (readArg 1 r).2)
  | [], d, r, h => by
    simp only [balanced, beq_iff_eq] at h
    subst h; simp
  | c :: s, d, r, h => by
    rw [balanced.eq_def] at h
    dsimp only at h
    rw [List.cons_append, readArg]
    by_cases h1 : c = '('
    · rw [if_pos h1] at h ⊢
      rw [readArg_balanced s (d + 1) r h]; rfl
    · rw [if_neg h1] at h ⊢
      by_cases h2 : c = ')'
      · rw [if_pos h2] at h ⊢
        cases d with
        | zero => cases h
        | succ d =>
          dsimp only at h
          rw [if_neg (by omega), show d + 1 + 1 - 1 = d + 1 from rfl, readArg_balanced s d r h]; rfl
      · rw [if_neg h2] at h ⊢
        rw [readArg_balanced s d r h]; rfl

theorem balanced_blank {b : Str} (h : Blank b) : balanced 0 b = true := by
  induction b with
  | nil => rfl
  | cons c b ih =>
    have hc := h c (by simp)
    rw [balanced.eq_def]
    dsimp only
    rw [if_neg (by rintro rfl; exact absurd hc (by decide)), if_neg (by rintro rfl; exact absurd hc (by decide))]
    exact ih fun d hd => h d (by simp [hd])

theorem strip_blank_right {x b : Str} (h1 : ∀ c, x.head? = some c → U.isSpace c = false) (h2 : ∀ c, x.getLast? = some c → U.isSpace c = false)
    (hb : ∀ c ∈ b, U.isSpace c = true) : stripP U.isSpace (x ++ b) = x := by
  have e : rstripP U.isSpace x = x := by
    have := stripP_fix U.isSpace x h1 h2
    rw [stripP] at this
    have hl : lstripP U.isSpace x = x := by
      cases x with
      | nil => rfl
      | cons c x => rw [lstripP, List.dropWhile_cons_of_neg]; rw [h1 c rfl]; simp
    rwa [hl] at this
  cases x with
  | nil => rw [List.nil_append]; exact (strip_nil_iff _ _).2 hb
  | cons c x =>
    rw [stripP, List.cons_append, lstripP, List.dropWhile_cons_of_neg (by rw [h1 c rfl]; simp), ← List.cons_append]
    rw [rstripP, List.reverse_append]
    have : ∀ (l m : Str), (∀ c ∈ l, U.isSpace c = true) → (l ++ m).dropWhile U.isSpace = m.dropWhile U.isSpace := by
      intro l m hl
      induction l with
      | nil => rfl
      | cons a l ih => rw [List.cons_append, List.dropWhile_cons_of_pos (hl a (by simp)), ih fun d hd => hl d (by simp [hd])]
    rw [this _ _ fun d hd => hb d (List.mem_reverse.1 hd)]
    exact e

theorem strip_blank {a x b : Str} (h1 : ∀ c, x.head? = some c → U.isSpace c = false) (h2 : ∀ c, x.getLast? = some c → U.isSpace c = false)
    (ha : ∀ c ∈ a, U.isSpace c = true) (hb : ∀ c ∈ b, U.isSpace c = true) : stripP U.isSpace (a ++ x ++ b) = x := by
  induction a with
  | nil => exact strip_blank_right h1 h2 hb
  | cons c a ih =>
    have := ih fun d hd => ha d (by simp [hd])
    rw [stripP, List.cons_append, List.cons_append, lstripP, List.dropWhile_cons_of_pos (ha c (by simp))]
    exact this

theorem blank_space {b : Str} (h : Blank b) : ∀ c ∈ b, U.isSpace c = true := fun c hc => (space_ascii (h c hc)).2.1

theorem readArg_text {a x b r : Str} (hx : ArgText U x) (ha : Blank a) (hb : Blank b) :
    (readArg 1 (skipWs (a ++ (x ++ (b ++ ')' :: r))))) = (x ++ b, ')' :: r) := by
  obtain ⟨hne, h1, h2, hbal⟩ := hx
  rw [skipWs_blank ha]
  · rw [show (1 : Nat) = 0 + 1 from rfl, readArg_balanced x 0 _ hbal, show (1 : Nat) = 0 + 1 from rfl, readArg_balanced b 0 _ (balanced_blank hb)]
    have : readArg 1 (')' :: r) = ([], ')' :: r) := by rw [readArg]; simp
    rw [this]; simp
  · intro c hc
    cases x with
    | nil => exact absurd rfl hne
    | cons d x =>
      cases hc
      have := h1 _ rfl
      rcases e : isHtmlSpace _ with _ | _
      · rfl
      · rw [(space_ascii e).2.1] at this; cases this

end JH
